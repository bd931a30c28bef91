{
 "claims": [
  {
   "property": "C01",
   "status": "partial",
   "theorems": [
    "Verif.Props.C01_normalized_is_probability_partial",
    "Verif.Props.C01_fails_without_usable_weight",
    "Verif.Props.C01_negation"
   ],
   "note": "False when every log-weight is NaN or +inf (result is NaN, the uniform fallback is dead code); proved otherwise."
  },
  {
   "property": "C02",
   "status": "proved",
   "theorems": [
    "Verif.Props.C02_shift_invariant",
    "Verif.Props.C02_monotone",
    "Verif.Props.C02_strictly_monotone"
   ],
   "note": ""
  },
  {
   "property": "C03",
   "status": "partial",
   "theorems": [
    "Verif.Props.C03_repeatable_partial",
    "Verif.Props.C03_second_read_uniform",
    "Verif.Props.C03_negation"
   ],
   "note": "False in the presence of NaN or +inf (cleaning in place changes the second result); proved otherwise."
  },
  {
   "property": "C04",
   "status": "proved",
   "theorems": [
    "Verif.Props.C04_ess_bounds",
    "Verif.Props.C04_ess_bounds_normalized"
   ],
   "note": ""
  },
  {
   "property": "C05",
   "status": "proved",
   "theorems": [
    "Verif.Props.C05_normalize_columnwise",
    "Verif.Props.C05_columns_independent"
   ],
   "note": ""
  },
  {
   "property": "C06",
   "status": "proved",
   "theorems": [
    "Verif.Props.C06_systematic_valid_1d",
    "Verif.Props.C06_systematic_valid_2d",
    "Verif.Props.C06_systematic_valid_supplied"
   ],
   "note": ""
  },
  {
   "property": "C07",
   "status": "proved",
   "theorems": [
    "Verif.Props.C07_systematic_offspring",
    "Verif.Props.C07_systematic_offspring_1d",
    "Verif.Props.C07_uniform_identity"
   ],
   "note": ""
  },
  {
   "property": "C08",
   "status": "partial",
   "theorems": [
    "Verif.Props.C08_zero_weight_not_selected_partial",
    "Verif.Props.C08_negation"
   ],
   "note": "False for the uniform draw 0; proved for positive draws."
  },
  {
   "property": "C09",
   "status": "proved",
   "theorems": [
    "Verif.Props.C09_systematic_unbiased"
   ],
   "note": ""
  },
  {
   "property": "C10",
   "status": "partial",
   "theorems": [
    "Verif.Props.C10_supplied_uniform_partial",
    "Verif.Props.C10_one_dimensional_ignores_u",
    "Verif.Props.C10_negation",
    "Verif.Props.C10_float_refused"
   ],
   "note": "False for one-dimensional weights (keyword lost) and Python floats (refused); proved for matrices and tensors."
  },
  {
   "property": "C11",
   "status": "proved",
   "theorems": [
    "Verif.Props.C11_residual",
    "Verif.Props.C11_residual_refuses_matrices"
   ],
   "note": ""
  },
  {
   "property": "C12",
   "status": "proved",
   "theorems": [
    "Verif.Props.C12_batched_columnwise",
    "Verif.Props.C12_batched_columnwise_supplied"
   ],
   "note": ""
  },
  {
   "property": "C13",
   "status": "proved",
   "theorems": [
    "Verif.Props.C13_window",
    "Verif.Props.C13_append",
    "Verif.Props.C13_recorded"
   ],
   "note": ""
  },
  {
   "property": "C14",
   "status": "partial",
   "theorems": [
    "Verif.Props.C14_round_trip_partial",
    "Verif.Props.C14_invariant",
    "Verif.Props.C14_negation",
    "Verif.Props.C14_shadowed_history_lost"
   ],
   "note": "False for names containing 'tensor_' and for a history shadowed by a tuple of the same name; proved otherwise."
  },
  {
   "property": "C15",
   "status": "partial",
   "theorems": [
    "Verif.Props.C15_second_load_is_empty",
    "Verif.Props.C15_negation",
    "Verif.Props.C15_other_entries_kept_partial"
   ],
   "note": "False: loading empties the dictionary of the histories; proved that a second load restores nothing, and what is kept."
  },
  {
   "property": "C16",
   "status": "proved",
   "theorems": [
    "Verif.Props.C16_behaves_like_map"
   ],
   "note": ""
  },
  {
   "property": "C17",
   "status": "partial",
   "theorems": [
    "Verif.Props.C17_initial_counted_twice",
    "Verif.Props.C17_total_partial",
    "Verif.Props.C17_negation"
   ],
   "note": "False for initial states with non-zero log-likelihood (counted twice); proved otherwise for every sequence of appends and resamplings."
  },
  {
   "property": "C18",
   "status": "partial",
   "theorems": [
    "Verif.Props.C18_appended_state_keeps_ll_partial",
    "Verif.Props.C18_initial_state_becomes_total",
    "Verif.Props.C18_negation"
   ],
   "note": "False for the initial state (its log-likelihood is the accumulator); proved for every appended state."
  },
  {
   "property": "C19",
   "status": "partial",
   "theorems": [
    "Verif.Props.C19_aligned_partial",
    "Verif.Props.C19_state_fields_wrong",
    "Verif.Props.C19_negation"
   ],
   "note": "False for log-likelihood and moments stored in the states; proved for the accumulator, recorded moments, particles, weights and indices."
  },
  {
   "property": "C20",
   "status": "partial",
   "theorems": [
    "Verif.Props.C20_exchange_partial",
    "Verif.Props.C20_negation"
   ],
   "note": "False when two recorded states share an index tensor and the other result's do not agree; proved otherwise."
  },
  {
   "property": "C21",
   "status": "proved",
   "theorems": [
    "Verif.Props.C21_round_trip",
    "Verif.Props.C21_refused"
   ],
   "note": ""
  },
  {
   "property": "C22",
   "status": "partial",
   "theorems": [
    "Verif.Props.C22_snapshot_partial",
    "Verif.Props.C22_ll_is_live",
    "Verif.Props.C22_negation"
   ],
   "note": "False for the log-likelihood (live reference); proved for everything else."
  },
  {
   "property": "C23",
   "status": "proved",
   "theorems": [
    "Verif.Props.C23_one_entry_per_observation",
    "Verif.Props.C23_moment_count"
   ],
   "note": ""
  },
  {
   "property": "C24",
   "status": "proved",
   "theorems": [
    "Verif.Props.C24_every_kth_step",
    "Verif.Props.C24_recorded_times"
   ],
   "note": ""
  },
  {
   "property": "C25",
   "status": "proved",
   "theorems": [
    "Verif.Props.C25_missing_observation"
   ],
   "note": ""
  },
  {
   "property": "C26",
   "status": "partial",
   "theorems": [
    "Verif.Props.C26_skip_partial",
    "Verif.Props.C26_strategies_agree",
    "Verif.Props.C26_negation"
   ],
   "note": "False: nan_strategy is never read; both strategies give the same move."
  },
  {
   "property": "C27",
   "status": "proved",
   "theorems": [
    "Verif.Props.C27_resamples_exactly_degenerate"
   ],
   "note": ""
  },
  {
   "property": "C28",
   "status": "proved",
   "theorems": [
    "Verif.Props.C28_sisr_update"
   ],
   "note": ""
  },
  {
   "property": "C29",
   "status": "proved",
   "theorems": [
    "Verif.Props.C29_apf_update"
   ],
   "note": ""
  },
  {
   "property": "C30",
   "status": "proved",
   "theorems": [
    "Verif.Props.C30_sisr_unbiased",
    "Verif.Props.C30_proper_proposals",
    "Verif.Props.C30_systematic"
   ],
   "note": "Expectation over a generator whose states have law P and whose draws are independent of what is left (Spec.Draws). C30_sisr_unbiased: any unbiased resampler, any threshold, missing observations, any observation frequency. C30_systematic: with the default resampler. C30_proper_proposals: any proposal with proper importance weights. Weights are exact reals; finite log-densities (positive densities)."
  },
  {
   "property": "C31",
   "status": "proved",
   "theorems": [
    "Verif.Props.C31_apf_unbiased",
    "Verif.Props.C31_proper_proposals",
    "Verif.Props.C31_systematic"
   ],
   "note": "As C30, for the APF with any finite measurable pre-weight function (it may depend on all particles)."
  },
  {
   "property": "C32",
   "status": "partial",
   "theorems": [
    "Verif.Props.C32_copy_partial",
    "Verif.Props.C32_threshold_scaled",
    "Verif.Props.C32_threshold_after_copies",
    "Verif.Props.C32_copy_always_resamples",
    "Verif.Props.C32_pre_weight_function_lost",
    "Verif.Props.C32_negation"
   ],
   "note": "False: the threshold is multiplied by the particle count and the pre-weight function is lost; the rest is proved kept."
  },
  {
   "property": "C33",
   "status": "proved",
   "theorems": [
    "Verif.Props.C33_relative_threshold_kept",
    "Verif.Props.C33_constructed"
   ],
   "note": ""
  },
  {
   "property": "C34",
   "status": "partial",
   "theorems": [
    "Verif.Props.C34_advances_partial",
    "Verif.Props.C34_clock_stands_still",
    "Verif.Props.C34_negation"
   ],
   "note": "False for the Gaussian and Gaussian-linearised proposals (copy keeps the time index): the clock stands still; proved for the others."
  },
  {
   "property": "C35",
   "status": "partial",
   "theorems": [
    "Verif.Props.C35_moments_partial",
    "Verif.Props.C35_weights_are_probabilities",
    "Verif.Props.C35_stored",
    "Verif.Props.C35_covariance_refused",
    "Verif.Props.C35_covariance_shape",
    "Verif.Props.C35_covariance_wrong",
    "Verif.Props.C35_negation"
   ],
   "note": "False for get_covariance (refuses vector states with parallel filters of different sizes, returns wrong numbers when sizes agree by accident); mean, variance and covariance formulas proved."
  },
  {
   "property": "C36",
   "status": "partial",
   "theorems": [
    "Verif.Props.C36_collapse_partial",
    "Verif.Props.C36_collapse_is_nan",
    "Verif.Props.C36_negation"
   ],
   "note": "False: the step log-likelihood is NaN when all importance weights are -inf; proved when some particle of weight zero is possible."
  },
  {
   "property": "C37",
   "status": "partial",
   "theorems": [
    "Verif.Props.C37_apf_ancestral_paths",
    "Verif.Props.C37_apf_runs",
    "Verif.Props.C37_sisr_ancestral_paths_partial",
    "Verif.Props.C37_sisr_always_resampling",
    "Verif.Props.C37_sisr_runs",
    "Verif.Props.C37_sisr_stale",
    "Verif.Props.C37_negation"
   ],
   "note": "False for SISR: a step without resampling keeps the previous step's indices, which smoothing then applies once more. Proved in full for APF and for SISR that resamples at each step, and as long as the stored indices are the initial ones."
  },
  {
   "property": "C38",
   "status": "proved",
   "theorems": [
    "Verif.Props.C38_paths_of_particles",
    "Verif.Props.C38_backward_kernel"
   ],
   "note": ""
  },
  {
   "property": "C39",
   "status": "partial",
   "theorems": [
    "Verif.Props.C39_method_names_partial",
    "Verif.Props.C39_capital_fl_refused",
    "Verif.Props.C39_negation"
   ],
   "note": "False: fixed lag is compared without lowering, so FL, Fl and fL are refused; everything else proved."
  },
  {
   "property": "C40",
   "status": "proved",
   "theorems": [
    "Verif.Props.C40_slice_pairs_observations",
    "Verif.Props.C40_unrecorded_mispairs"
   ],
   "note": ""
  },
  {
   "property": "C41",
   "status": "proved",
   "theorems": [
    "Verif.Props.C41_sampled_kernel",
    "Verif.Props.C41_weight_is_predictive",
    "Verif.Props.C41_weight_constant",
    "Verif.Props.C41_weight_is_marginal"
   ],
   "note": ""
  },
  {
   "property": "C42",
   "status": "partial",
   "theorems": [
    "Verif.Props.C42_random_walk_partial",
    "Verif.Props.C42_uses_previous_state",
    "Verif.Props.C42_not_one_number",
    "Verif.Props.C42_negation"
   ],
   "note": "False: the state is used in place of its conditional mean, and a scalar observation of a vector state gives one number per component. Proved for random walks."
  },
  {
   "property": "C43",
   "status": "partial",
   "theorems": [
    "Verif.Props.C43_legacy_partial",
    "Verif.Props.C43_ignores_gradient",
    "Verif.Props.C43_negation"
   ],
   "note": "False for the default (functorch) finder, which adds the step size whatever the gradient; proved for the legacy finder."
  },
  {
   "property": "C44",
   "status": "proved",
   "theorems": [
    "Verif.Props.C44_safeguarded_step",
    "Verif.Props.C44_uphill",
    "Verif.Props.C44_gaussian_exact"
   ],
   "note": ""
  },
  {
   "property": "C45",
   "status": "proved",
   "theorems": [
    "Verif.Props.C45_properly_weighted"
   ],
   "note": ""
  },
  {
   "property": "C46",
   "status": "proved",
   "theorems": [
    "Verif.Props.C46_set_once",
    "Verif.Props.C46_first",
    "Verif.Props.C46_needed"
   ],
   "note": ""
  },
  {
   "property": "C47",
   "status": "proved",
   "theorems": [
    "Verif.Props.C47_created_once",
    "Verif.Props.C47_others_untouched"
   ],
   "note": ""
  },
  {
   "property": "C48",
   "status": "partial",
   "theorems": [
    "Verif.Props.C48_known_name_partial",
    "Verif.Props.C48_name_is_lost",
    "Verif.Props.C48_negation"
   ],
   "note": "False: a refused batched prior is stored all the same and its name is lost for good; proved for known names and without batch shape."
  },
  {
   "property": "C49",
   "status": "proved",
   "theorems": [
    "Verif.Props.C49_stack_unstack",
    "Verif.Props.C49_unstack_stack",
    "Verif.Props.C49_layout"
   ],
   "note": ""
  },
  {
   "property": "C50",
   "status": "partial",
   "theorems": [
    "Verif.Props.C50_later_unchanged_partial",
    "Verif.Props.C50_wrong_width",
    "Verif.Props.C50_negation"
   ],
   "note": "False: parameters before the one out of bounds have been overwritten; proved that it and all later ones are unchanged."
  },
  {
   "property": "C51",
   "status": "proved",
   "theorems": [
    "Verif.Props.C51_exchange",
    "Verif.Props.C51_resample"
   ],
   "note": ""
  },
  {
   "property": "C52",
   "status": "partial",
   "theorems": [
    "Verif.Props.C52_restores_partial",
    "Verif.Props.C52_refuses_names",
    "Verif.Props.C52_refuses_argument",
    "Verif.Props.C52_accepts_other_prior",
    "Verif.Props.C52_negation"
   ],
   "note": "False: wrapped priors (Independent, transformed) have no declared arguments, so a state saved under another prior is accepted. Proved: names are checked, plain arguments are checked, and equal ones are restored."
  },
  {
   "property": "C53",
   "status": "partial",
   "theorems": [
    "Verif.Props.C53_via_disk_partial",
    "Verif.Props.C53_shared",
    "Verif.Props.C53_negation"
   ],
   "note": "False: a state dictionary loaded as it is shares storage with its source; proved for a dictionary that went through disk."
  },
  {
   "property": "C54",
   "status": "proved",
   "theorems": [
    "Verif.Props.C54_copy",
    "Verif.Props.C54_empty"
   ],
   "note": ""
  },
  {
   "property": "C55",
   "status": "partial",
   "theorems": [
    "Verif.Props.C55_active",
    "Verif.Props.C55_no_reentry_partial",
    "Verif.Props.C55_same_contexts",
    "Verif.Props.C55_reentry",
    "Verif.Props.C55_negation"
   ],
   "note": "False under re-entry (leaving removes the first entry); proved without re-entry, and that the same contexts stay active in every case."
  },
  {
   "property": "C56",
   "status": "proved",
   "theorems": [
    "Verif.Props.C56_own_operations",
    "Verif.Props.C56_others",
    "Verif.Props.C56_foreign_thread",
    "Verif.Props.C56_leave"
   ],
   "note": ""
  },
  {
   "property": "C57",
   "status": "partial",
   "theorems": [
    "Verif.Props.C57_unnested_partial",
    "Verif.Props.C57_on_again",
    "Verif.Props.C57_off_inside",
    "Verif.Props.C57_nested",
    "Verif.Props.C57_negation"
   ],
   "note": "False for nested blocks (the inner one switches verification on for the rest of the outer one); proved for unnested blocks."
  },
  {
   "property": "C58",
   "status": "partial",
   "theorems": [
    "Verif.Props.C58_plain_partial",
    "Verif.Props.C58_family",
    "Verif.Props.C58_independent",
    "Verif.Props.C58_transformed",
    "Verif.Props.C58_broadcast",
    "Verif.Props.C58_nan",
    "Verif.Props.C58_negation"
   ],
   "note": "False for Independent and transformed distributions, for arguments that broadcast and for NaN; proved for plain distributions with arguments of equal lengths."
  },
  {
   "property": "C59",
   "status": "proved",
   "theorems": [
    "Verif.Props.C59_counters",
    "Verif.Props.C59_data"
   ],
   "note": ""
  },
  {
   "property": "C60",
   "status": "partial",
   "theorems": [
    "Verif.Props.C60_trigger_partial",
    "Verif.Props.C60_ninf_unseen",
    "Verif.Props.C60_negation"
   ],
   "note": "False of the code: get_ess cleans the accumulated weights in place before smc2.py:60 looks at them, so a weight of -inf is never seen as non-finite (C60_negation). True when no accumulated weight is -inf."
  },
  {
   "property": "C61",
   "status": "partial",
   "theorems": [
    "Verif.Props.C61_constant",
    "Verif.Props.C61_decaying",
    "Verif.Props.C61_interval_partial",
    "Verif.Props.C61_rising",
    "Verif.Props.C61_negation",
    "Verif.Props.C61_zero_half_life"
   ],
   "note": "False for interval thresholds with a value below the ending value, which acts as a lower bound; everything else proved."
  },
  {
   "property": "C62",
   "status": "partial",
   "theorems": [
    "Verif.Props.C62_split_partial",
    "Verif.Props.C62_negation"
   ],
   "note": "False of the code: base.py:164 compares with <=, so the first algorithm processes switch + 1 observations (C62_split_partial, C62_negation)."
  },
  {
   "property": "C63",
   "status": "partial",
   "theorems": [
    "Verif.Props.C63_schedule_partial",
    "Verif.Props.C63_once_per_block_partial",
    "Verif.Props.C63_zero_block",
    "Verif.Props.C63_negation"
   ],
   "note": "False of the code: the counter is increased before it is tested, so the update comes after block_len - 1, 2 block_len - 1, ... observations (C63_negation). Proved: the exact schedule and that exactly one update falls due in any block_len consecutive observations; block_len 0 raises."
  },
  {
   "property": "C64",
   "status": "proved",
   "theorems": [
    "Verif.Props.C64_capped",
    "Verif.Props.C64_first_observations",
    "Verif.Props.C64_results"
   ],
   "note": "C64_capped, C64_first_observations, C64_results: the filter results always have been computed with the current number of state particles, for every algorithm, also after TooManyIncreases."
  },
  {
   "property": "C65",
   "status": "proved",
   "theorems": [
    "Verif.Props.C65_rejuvenation"
   ],
   "note": ""
  },
  {
   "property": "C66",
   "status": "partial",
   "theorems": [
    "Verif.Props.C66_smc2_partial",
    "Verif.Props.C66_live_partial",
    "Verif.Props.C66_pmmh_partial",
    "Verif.Props.C66_pmmh_initial",
    "Verif.Props.C66_quasi_initial",
    "Verif.Props.C66_negation"
   ],
   "note": "False for PMMH (the model is built before the means of the priors are written) and for SMC2 with a quasi-random context (the same with the quasi-random points). Proved for SMC2 with the plain context, for live parameters with any context, and for PMMH slots that have accepted a candidate."
  },
  {
   "property": "C67",
   "status": "partial",
   "theorems": [
    "Verif.Props.C67_once_partial",
    "Verif.Props.C67_seen_partial",
    "Verif.Props.C67_registered",
    "Verif.Props.C67_negation"
   ],
   "note": "False of the code: after a particle increase the callbacks get the discarded state object (C67_negation). Proved: once per observation, in order; registration; which object they get."
  },
  {
   "property": "C68",
   "status": "partial",
   "theorems": [
    "Verif.Props.C68_since_start_partial",
    "Verif.Props.C68_since_rejuvenation_partial",
    "Verif.Props.C68_zero_likelihood",
    "Verif.Props.C68_negation"
   ],
   "note": "False of the code for log-likelihoods -inf, which become the lowest finite number (C68_negation). Proved for finite log-likelihoods and ratios."
  },
  {
   "property": "C69",
   "status": "proved",
   "theorems": [
    "Verif.Props.C69_same_ancestor",
    "Verif.Props.C69_state"
   ],
   "note": ""
  },
  {
   "property": "C70",
   "status": "proved",
   "theorems": [
    "Verif.Props.C70_probability",
    "Verif.Props.C70_ratio",
    "Verif.Props.C70_undefined_rejected",
    "Verif.Props.C70_move",
    "Verif.Props.C70_reversible",
    "Verif.Props.C70_marginal",
    "Verif.Props.C70_invariant"
   ],
   "note": "Reversibility and invariance are for the state of one slot (parameters and random numbers of its filter) and proposals whose density in a slot depends on the parameters of that slot (the random walk, by C72). The accept probability holds for every proposal object."
  },
  {
   "property": "C71",
   "status": "proved",
   "theorems": [
    "Verif.Props.C71_append",
    "Verif.Props.C71_record",
    "Verif.Props.C71_repeat"
   ],
   "note": ""
  },
  {
   "property": "C72",
   "status": "proved",
   "theorems": [
    "Verif.Props.C72_centred"
   ],
   "note": ""
  },
  {
   "property": "C73",
   "status": "partial",
   "theorems": [
    "Verif.Props.C73_first_partial",
    "Verif.Props.C73_accumulates",
    "Verif.Props.C73_negation"
   ],
   "note": "False of the code: PyTorch adds to an existing .grad, and build never clears it, so from the second build on one context the location is displaced by the gradients of all earlier builds. True of the first build."
  },
  {
   "property": "C74",
   "status": "partial",
   "theorems": [
    "Verif.Props.C74_mean",
    "Verif.Props.C74_variance_partial",
    "Verif.Props.C74_robust_zero",
    "Verif.Props.C74_negation"
   ],
   "note": "The mean part is proved. The variance part is false when the robust variance is the interquartile one (the points are shrunk relative to the weighted variance); proved when both variances agree, and that the total lies between them."
  },
  {
   "property": "C75",
   "status": "partial",
   "theorems": [
    "Verif.Props.C75_robust",
    "Verif.Props.C75_min_std_partial",
    "Verif.Props.C75_float",
    "Verif.Props.C75_negation"
   ],
   "note": "False for the constant kernel with a Python float, which raises (float has no clamp); everything else proved."
  },
  {
   "property": "C76",
   "status": "proved",
   "theorems": [
    "Verif.Props.C76_inside",
    "Verif.Props.C76_one_rotation",
    "Verif.Props.C76_plain"
   ],
   "note": ""
  },
  {
   "property": "C77",
   "status": "partial",
   "theorems": [
    "Verif.Props.C77_negative_definite_partial",
    "Verif.Props.C77_saddle",
    "Verif.Props.C77_ill_conditioned",
    "Verif.Props.C77_negation"
   ],
   "note": "False for indefinite Hessians and for positive definite ones with condition number above two, since only the smallest eigenvalue is looked at; proved for negative definite ones."
  },
  {
   "property": "C78",
   "status": "partial",
   "theorems": [
    "Verif.Props.C78_same_size_partial",
    "Verif.Props.C78_simplex",
    "Verif.Props.C78_negation"
   ],
   "note": "False for priors whose unconstrained event has another number of entries (raises); proved otherwise."
  },
  {
   "property": "C79",
   "status": "partial",
   "theorems": [
    "Verif.Props.C79_trigger_partial",
    "Verif.Props.C79_first",
    "Verif.Props.C79_negation"
   ],
   "note": "C79_negation: a weight of -inf has been replaced by the lowest finite number before the check, so it does not trigger. C79_trigger_partial: NaN and +inf do, and the ESS; with callbacks that leave the weights alone. C79_first: before the first observation."
  },
  {
   "property": "C80",
   "status": "proved",
   "theorems": [
    "Verif.Props.C80_path_law"
   ],
   "note": "For any unbiased resampler and categorical draws (randomness as in C30); Lemmas/Categorical shows that drawing by inversion satisfies the hypothesis, the case uses systematic resampling. Weights and log-densities finite."
  },
  {
   "property": "C81",
   "status": "partial",
   "theorems": [
    "Verif.Props.C81_recorded_steps_partial",
    "Verif.Props.C81_unrecorded_gaps",
    "Verif.Props.C81_negation"
   ],
   "note": "C81_negation: with observe_every_step > 1 and without recording of intermediary states the recorded states are observe_every_step apart (C81_unrecorded_gaps), yet the density of a single step is used. C81_recorded_steps_partial: holds if intermediary states are recorded or every step is observed."
  },
  {
   "property": "C82",
   "status": "proved",
   "theorems": [
    "Verif.Props.C82_linearized_sisr",
    "Verif.Props.C82_linearized_apf",
    "Verif.Props.C82_linear_sisr",
    "Verif.Props.C82_linear_apf",
    "Verif.Props.C82_nested_sisr",
    "Verif.Props.C82_nested_apf"
   ],
   "note": "Linearized: for any normal kernel with invertible scale that depends measurably on the particle, so for both mode finders whatever they return; the transition must have the density used in the weights. LinearGaussianObservations: for normal increments with positive scales, positive observation noise and any Cholesky routine with L Lᵀ = S that is measurable. NestedProposal: any transition kernel and any positive number of inner samples. Random draws as in C30/C31; the APF theorems take any finite measurable pre-weight. Inputs where a proposal raises or forms non-finite kernels (C42, C44, C77) are outside the hypotheses."
  },
  {
   "property": "C83",
   "status": "proved",
   "theorems": [
    "Verif.Props.C83_fitted",
    "Verif.Props.C83_fallback"
   ],
   "note": "`cholesky_ex` is any function that factors positive definite matrices and sets the flag on other symmetric ones. A cloud in which a parameter has a single value cannot be rejuvenated (ValueError)."
  },
  {
   "property": "C84",
   "status": "partial",
   "theorems": [
    "Verif.Props.C84_acceptance",
    "Verif.Props.C84_same_moments_partial",
    "Verif.Props.C84_negation"
   ],
   "note": "False: the reverse density is that of a normal distribution fitted to the candidates (run_pmmh builds a new kernel on the proposal context with uniform weights), not of the one they were drawn from (C84_acceptance, C84_negation). C84_same_moments_partial: true when the candidates have the mean and covariance of the weighted parameters. Stated for one PMMH step without an increase."
  },
  {
   "property": "C85",
   "status": "partial",
   "theorems": [
    "Verif.Props.C85_acceptance",
    "Verif.Props.C85_unmoved_partial",
    "Verif.Props.C85_negation"
   ],
   "note": "False: the kernel is built before the context is resampled (mh.py:55-57), so it is centred at the parameters the slot had before (C85_acceptance, C85_negation). C85_unmoved_partial: true for slots resampled to themselves. Stated for one PMMH step without an increase."
  },
  {
   "property": "C86",
   "status": "proved",
   "theorems": [
    "Verif.Props.C86_gaussian",
    "Verif.Props.C86_linearized",
    "Verif.Props.C86_linear"
   ],
   "note": "C86_gaussian, C86_linearized and C86_linear, one per proposal. For GaussianLinear the kernel and the weight are spelled out (conditioned normal, predictive density). For a vector state with one component see C141."
  },
  {
   "property": "C87",
   "status": "proved",
   "theorems": [
    "Verif.Props.C87_gaussian",
    "Verif.Props.C87_linearized",
    "Verif.Props.C87_linear"
   ],
   "note": "C87_gaussian, C87_linearized and C87_linear. The observation density is read at the time of the old particles (C34)."
  },
  {
   "property": "C88",
   "status": "proved",
   "theorems": [
    "Verif.Props.C88_too_few",
    "Verif.Props.C88_enough"
   ],
   "note": "C88_too_few and C88_enough, each for the three proposals."
  },
  {
   "property": "C89",
   "status": "proved",
   "theorems": [
    "Verif.Props.C89_round_trip",
    "Verif.Props.C89_resume",
    "Verif.Props.C89_continues",
    "Verif.Props.C89_target"
   ],
   "note": "Proved for every execution of initialization, observations, in-place rejuvenations, masked exchanges and increases, with storage sharing."
  },
  {
   "property": "C90",
   "status": "partial",
   "theorems": [
    "Verif.Props.C90_mixture",
    "Verif.Props.C90_kept_partial",
    "Verif.Props.C90_negation",
    "Verif.Props.C90_second_load"
   ],
   "note": "False: state_dict holds the live weight tensor (and the live log-likelihood), so a checkpoint loaded after k further observations combines the old counter, ESS history, parsed data and moments with the newest weights (C90_mixture); a second load restores no histories (C90_second_load)."
  },
  {
   "property": "C91",
   "status": "partial",
   "theorems": [
    "Verif.Props.C91_chain_lost",
    "Verif.Props.C91_chain",
    "Verif.Props.C91_filter_partial",
    "Verif.Props.C91_negation"
   ],
   "note": "False for the chain: PMMHResult inherits state_dict and never stores samples (C91_chain_lost). The filter result is restored (C91_filter_partial)."
  },
  {
   "property": "C92",
   "status": "proved",
   "theorems": [
    "Verif.Props.C92_defined",
    "Verif.Props.C92_unstack",
    "Verif.Props.C92_change_of_variables",
    "Verif.Props.C92_constrained"
   ],
   "note": "Supports with a componentwise bijection (real line, half-lines, intervals). Simplices, Cholesky factors and other supports whose bijection mixes components are not modelled, nor is torch's clipping of the sigmoid."
  },
  {
   "property": "C93",
   "status": "proved",
   "theorems": [
    "Verif.Props.C93_likelihood",
    "Verif.Props.C93_exact"
   ],
   "note": "Composition of the filter model (C30), PMMH move (C70) and prior evaluation (C92). SISR and APF (GPF is not unbiased). The proposal scale is fixed."
  },
  {
   "property": "C94",
   "status": "proved",
   "theorems": [
    "Verif.Props.C94_multinomial",
    "Verif.Props.C94_multinomial_single",
    "Verif.Props.C94_multinomial_unbiased",
    "Verif.Props.C94_residual",
    "Verif.Props.C94_sisr_multinomial",
    "Verif.Props.C94_apf_multinomial",
    "Verif.Props.C94_apf_residual"
   ],
   "note": "torch.multinomial is assumed to draw each index with probability proportional to the given numbers; joint law of the draws is left open. Residual resampling is used for a single filter, since it refuses batches (C11, C95)."
  },
  {
   "property": "C95",
   "status": "partial",
   "theorems": [
    "Verif.Props.C95_schemes_partial",
    "Verif.Props.C95_residual_refused",
    "Verif.Props.C95_residual_vector",
    "Verif.Props.C95_negation"
   ],
   "note": "False for residual resampling: indexing with the mask always gives a two-dimensional tensor, which residual refuses, so SISR raises NotImplementedError at the first resampling, even for a single filter. Proved for the other two schemes."
  },
  {
   "property": "C96",
   "status": "proved",
   "theorems": [
    "Verif.Props.C96_weights",
    "Verif.Props.C96_proper",
    "Verif.Props.C96_evidence",
    "Verif.Props.C96_quiet",
    "Verif.Props.C96_prior"
   ],
   "note": "SISR or APF with an unbiased resampler, contexts whose parameters are not replaced after the model was built (not QuasiInferenceContext, see C66), observation densities that are positive at the particles."
  },
  {
   "property": "C97",
   "status": "partial",
   "theorems": [
    "Verif.Props.C97_entry_partial",
    "Verif.Props.C97_mean_partial",
    "Verif.Props.C97_count",
    "Verif.Props.C97_weighted_twice",
    "Verif.Props.C97_negation"
   ],
   "note": "False when SMC2 increases the number of state particles: the callback is given the discarded state, whose weights are those from before the resampling while its filter results were already resampled and moved, so particles are weighted twice (C97_weighted_twice, C97_negation: 0.9 recorded, 0.5 in the returned state). In all other steps the claim holds (C97_mean_partial); C97_entry_partial states the entry in every case, C97_count that there is one entry per observation."
  },
  {
   "property": "C98",
   "status": "partial",
   "theorems": [
    "Verif.Props.C98_other_filters",
    "Verif.Props.C98_sizes",
    "Verif.Props.C98_exchanged",
    "Verif.Props.C98_uniform_partial",
    "Verif.Props.C98_negation"
   ],
   "note": "False for particle filters: the code sums over the last dimension, which runs over the parameter particles, so it raises an exception unless there are as many state as parameter particles (C98_sizes), and otherwise exchanges the roles of the two (C98_exchanged). The claim holds for other filters (C98_other_filters) and for equal weights and equal numbers (C98_uniform_partial)."
  },
  {
   "property": "C99",
   "status": "proved",
   "theorems": [
    "Verif.Props.C99_fields",
    "Verif.Props.C99_refused"
   ],
   "note": "Settings that constructors only store are not checked by the code when the algorithm is built. The context is taken from the stack and not part of this property."
  },
  {
   "property": "C100",
   "status": "partial",
   "theorems": [
    "Verif.Props.C100_never",
    "Verif.Props.C100_alone_partial",
    "Verif.Props.C100_second_partial",
    "Verif.Props.C100_negation"
   ],
   "note": "False for all arguments: make_second is called with three positional arguments but takes two, so the constructor always raises TypeError (C100_never). Fixed-width NESS by itself handles its arguments as claimed (C100_alone_partial), and so does make_second when it is called without the context (C100_second_partial)."
  },
  {
   "property": "C101",
   "status": "proved",
   "theorems": [
    "Verif.Props.C101_calls",
    "Verif.Props.C101_progress",
    "Verif.Props.C101_function",
    "Verif.Props.C101_closed",
    "Verif.Props.C101_zero",
    "Verif.Props.C101_pmmh",
    "Verif.Props.C101_pmmh_progress"
   ],
   "note": "C101_calls, C101_progress, C101_function, C101_closed, C101_zero (log_every_iteration = 0 raises) for sequential algorithms, C101_pmmh and C101_pmmh_progress for PMMH. Callbacks must not touch the iteration counter."
  },
  {
   "property": "C102",
   "status": "partial",
   "theorems": [
    "Verif.Props.C102_given",
    "Verif.Props.C102_figure_partial",
    "Verif.Props.C102_single",
    "Verif.Props.C102_empty",
    "Verif.Props.C102_negation"
   ],
   "note": "True for given axes (C102_given: IndexError if there are too few) and for new figures, except for one panel in one column (C102_figure_partial). There plt.subplots(1, 1) returns an Axes without ravel and AttributeError is raised (C102_single, C102_negation). No panels: ValueError (C102_empty)."
  },
  {
   "property": "C103",
   "status": "partial",
   "theorems": [
    "Verif.Props.C103_law_partial",
    "Verif.Props.C103_close",
    "Verif.Props.C103_scrambled",
    "Verif.Props.C103_negation"
   ],
   "note": "True up to the tails: the squeeze of qmc.py:49 cuts off mass eps / 2 on both sides of every component (C103_law_partial gives the exact distribution function, C103_close the distance 1 - (1 - eps)^m of the joint laws, C103_scrambled the same without rotation for uniform points). Hence not exactly the prior (C103_negation). Priors with several components have no icdf in torch and are not covered."
  },
  {
   "property": "C104",
   "status": "partial",
   "theorems": [
    "Verif.Props.C104_law_partial",
    "Verif.Props.C104_determined",
    "Verif.Props.C104_negation"
   ],
   "note": "The law of each candidate for a given kernel is right up to the tails that the squeeze cuts off, at distance at most 1 - (1 - eps)^d (C104_law_partial). It is not independent of the initial parameters: the engine rotates by one vector for its whole life, so that candidates are determined by any one row of initial parameters and the sequence (C104_determined, C104_negation)."
  },
  {
   "property": "C105",
   "status": "partial",
   "theorems": [
    "Verif.Props.C105_first_partial",
    "Verif.Props.C105_others",
    "Verif.Props.C105_once",
    "Verif.Props.C105_negation"
   ],
   "note": "True of the first patch with a given sub_cls (C105_first_partial, C105_others). The list of applied patches remembers only sub_cls, so a second class is never patched (C105_once, C105_negation)."
  },
  {
   "property": "C106",
   "status": "partial",
   "theorems": [
    "Verif.Props.C106_single_partial",
    "Verif.Props.C106_several",
    "Verif.Props.C106_other",
    "Verif.Props.C106_negation"
   ],
   "note": "True of families whose constructor requires exactly the arguments of arg_constraints, such as Normal (C106_single_partial). False of families with several parametrisations, such as Bernoulli and MultivariateNormal: all of them are passed, and the constructor raises ValueError (C106_several, C106_negation). Independent and TransformedDistribution have empty arg_constraints: TypeError (C106_other)."
  },
  {
   "property": "C107",
   "status": "partial",
   "theorems": [
    "Verif.Props.C107_valid",
    "Verif.Props.C107_alone_partial",
    "Verif.Props.C107_newton",
    "Verif.Props.C107_coupled",
    "Verif.Props.C107_negation"
   ],
   "note": "Kernels are always valid (C107_valid). Each kernel is that of the particle alone if the state is a vector, the observation a scalar or no second order information is used (C107_alone_partial). For a scalar state with a vector observation the smallest curvature is taken over the last dimension, which is then that of the parallel filters: a filter with positive curvature keeps its initial kernel as soon as another filter of its row has none (C107_coupled, C107_newton, C107_negation)."
  },
  {
   "property": "C108",
   "status": "partial",
   "theorems": [
    "Verif.Props.C108_independent_partial",
    "Verif.Props.C108_correlated",
    "Verif.Props.C108_negation"
   ],
   "note": "True of targets with independent components, where mean and variance are those of the target (C108_independent_partial). False of correlated components: the column sums of the Hessian stand in for its inverse, and from (1, 0) the step goes to (1/3, -1/3) instead of 0 (C108_correlated, C108_negation)."
  },
  {
   "property": "C109",
   "status": "proved",
   "theorems": [
    "Verif.Props.C109_likelihood_error",
    "Verif.Props.C109_bootstrap",
    "Verif.Props.C109_consistent"
   ],
   "note": "The main theorem also covers other proposals with bounded importance weights and other resamplers that draw ancestors independently. Systematic resampling, the default of the code, does not draw independently and is not covered."
  },
  {
   "property": "C110",
   "status": "proved",
   "theorems": [
    "Verif.Props.C110_filter_error",
    "Verif.Props.C110_bootstrap",
    "Verif.Props.C110_consistent"
   ],
   "note": "As for C109, any resampler and proposal that draw independently, with bounded importance weights, are covered; systematic resampling is not."
  },
  {
   "property": "C111",
   "status": "proved",
   "theorems": [
    "Verif.Props.C111_likelihood_error",
    "Verif.Props.C111_bootstrap",
    "Verif.Props.C111_consistent"
   ],
   "note": "The main theorem also covers other proposals, if importance weight over pre-weight of the ancestor is bounded and pre-weights are bounded above (so fully adapted proposals too), and other resamplers that draw ancestors independently. Systematic resampling, the default of the code, does not draw independently and is not covered."
  },
  {
   "property": "C112",
   "status": "proved",
   "theorems": [
    "Verif.Props.C112_filter_error",
    "Verif.Props.C112_bootstrap",
    "Verif.Props.C112_consistent"
   ],
   "note": "As for C111, other proposals and resamplers that draw independently are covered; systematic resampling is not."
  },
  {
   "property": "C113",
   "status": "proved",
   "theorems": [
    "Verif.Props.C113_target",
    "Verif.Props.C113_increase"
   ],
   "note": "Hypothesis on the particle before the increase: it follows the target for n particles. That the move of the code leaves it invariant is not always true (C84, C85), so the two are not composed."
  },
  {
   "property": "C114",
   "status": "proved",
   "theorems": [
    "Verif.Props.C114_between_updates",
    "Verif.Props.C114_start",
    "Verif.Props.C114_posterior"
   ],
   "note": "Unlike C96 it starts anywhere (for example after a rejuvenation that keeps the target) and makes no assumption on the law of the other particles."
  },
  {
   "property": "C115",
   "status": "partial",
   "theorems": [
    "Verif.Props.C115_variation_partial",
    "Verif.Props.C115_variation_1d_partial",
    "Verif.Props.C115_sorted_partial",
    "Verif.Props.C115_persistent_error",
    "Verif.Props.C115_negation"
   ],
   "note": "False of the code: with alternating weights and the indicator of the heavy particles the error is exactly one quarter for every even number of particles and every uniform number, because all positions share one uniform number. Proved instead: the error is at most the variation of the function along the particles divided by their number, so it is at most range / N for sorted values."
  },
  {
   "property": "C116",
   "status": "proved",
   "theorems": [
    "Verif.Props.C116_silverman_optimal",
    "Verif.Props.C116_consistent",
    "Verif.Props.C116_scott"
   ],
   "note": "The asymptotic error formula is taken from Silverman (1986) as specification; its derivation from the estimate is not formalised. Real arithmetic."
  },
  {
   "property": "C117",
   "status": "proved",
   "theorems": [
    "Verif.Props.C117_equal",
    "Verif.Props.C117_sharing",
    "Verif.Props.C117_independent",
    "Verif.Props.C117_run"
   ],
   "note": "deepcopy of the standard library is modelled with its memo; the container of further tensors of BaseResult is not (only the two histories of the filter result). Appended states reuse only tensors of the result they are appended to, as in SISR."
  },
  {
   "property": "C118",
   "status": "partial",
   "theorems": [
    "Verif.Props.C118_random_walk_partial",
    "Verif.Props.C118_sisr_partial",
    "Verif.Props.C118_weights",
    "Verif.Props.C118_negation"
   ],
   "note": "False of the code, because pre_weight takes the previous state in place of its conditional mean (C42): for x' = x/2 + u two particles get different weights. Proved for random walks with any scale; the weights of the code for all models are stated in C118_weights, and for SISR the weights do not depend on the random numbers of the step."
  },
  {
   "property": "C119",
   "status": "proved",
   "theorems": [
    "Verif.Props.C119_variance",
    "Verif.Props.C119_exact"
   ],
   "note": "Proved."
  },
  {
   "property": "C120",
   "status": "proved",
   "theorems": [
    "Verif.Props.C120_likelihood_error",
    "Verif.Props.C120_filter_error",
    "Verif.Props.C120_consistent"
   ],
   "note": "Proved. C111 and C112 are stated for all steady resamplers (unbiased, variance of sums at most N H^2), of which multinomial and residual resampling are cases."
  },
  {
   "property": "C121",
   "status": "proved",
   "theorems": [
    "Verif.Props.C121_bandwidth",
    "Verif.Props.C121_moved",
    "Verif.Props.C121_limit"
   ],
   "note": "Proved."
  },
  {
   "property": "C122",
   "status": "partial",
   "theorems": [
    "Verif.Props.C122_context_partial",
    "Verif.Props.C122_parameter",
    "Verif.Props.C122_shared",
    "Verif.Props.C122_deepcopy_parameter",
    "Verif.Props.C122_deepcopy_context",
    "Verif.Props.C122_negation"
   ],
   "note": "Proved for pickle. False for copy.deepcopy: PriorBoundParameter inherits __deepcopy__ of torch.nn.Parameter, which copies only the data and requires_grad, so every parameter of a deep copy has no context and raises AttributeError when asked for its prior."
  },
  {
   "property": "C123",
   "status": "proved",
   "theorems": [
    "Verif.Props.C123_converges"
   ],
   "note": "Proved. The initial model is built before the parameters are overwritten by the prior mean (pmmh.py:60-68), so the first likelihood estimate is one of other parameters; the theorem covers this, since it holds for any finite estimate at the start."
  },
  {
   "property": "C124",
   "status": "proved",
   "theorems": [
    "Verif.Props.C124_averages"
   ],
   "note": "Proved."
  },
  {
   "property": "C125",
   "status": "proved",
   "theorems": [
    "Verif.Props.C125_evidence",
    "Verif.Props.C125_posterior"
   ],
   "note": "Proved. The statement is conditional on runs without update, whose occurrence is settled by C126."
  },
  {
   "property": "C126",
   "status": "proved",
   "theorems": [
    "Verif.Props.C126_ess",
    "Verif.Props.C126_smc2",
    "Verif.Props.C126_ness"
   ],
   "note": "Proved. The case of efficiency equal to the threshold is left open on purpose: the limit does not decide it. An exception while jittering counts as acting in the statement for NESS."
  },
  {
   "property": "C127",
   "status": "partial",
   "theorems": [
    "Verif.Props.C127_complete_partial",
    "Verif.Props.C127_short_window",
    "Verif.Props.C127_intermediary",
    "Verif.Props.C127_skipping",
    "Verif.Props.C127_two_states",
    "Verif.Props.C127_negation"
   ],
   "note": "False in general, proved if all states are recorded and every step is observed. With the default window (record_states=False) and at least two observations it raises; with a window of two states it silently evaluates all observations at the last state; with observe_every_step > 1 it raises if the intermediary states are recorded, and otherwise evaluates the one-step transition density between states several steps apart."
  },
  {
   "property": "C128",
   "status": "partial",
   "theorems": [
    "Verif.Props.C128_missing_factor",
    "Verif.Props.C128_real_partial",
    "Verif.Props.C128_uphill",
    "Verif.Props.C128_downhill",
    "Verif.Props.C128_langevin_scale",
    "Verif.Props.C128_negation"
   ],
   "note": "False: the gradient is taken with respect to the constrained parameters and added to the unconstrained ones, so the derivative of the bijection is missing. Proved for unconstrained parameters; proved that the step is still uphill for small step sizes unless a parameter is bounded above only, and downhill if all are. The standard deviation is the one of the Langevin algorithm."
  },
  {
   "property": "C129",
   "status": "partial",
   "theorems": [
    "Verif.Props.C129_apf_partial",
    "Verif.Props.C129_sisr_partial",
    "Verif.Props.C129_bootstrap_partial",
    "Verif.Props.C129_consistent_partial",
    "Verif.Props.C129_no_weights",
    "Verif.Props.C129_negation"
   ],
   "note": "False as stated: `_do_sample_fl` follows the ancestors but never uses the weights of the last state, and returns one path per particle without weights (`C129_no_weights`, `C129_negation`: two observation densities, same random numbers, same paths, different smoothing laws). Proved: weighted with the normalised weights of the last state, the averages over exactly the returned paths have mean squared error O(1/N) against the smoothing distribution (APF; SISR for the ancestral paths, which are the returned ones if every step resamples), hence converge."
  },
  {
   "property": "C130",
   "status": "proved",
   "theorems": [
    "Verif.Props.C130_error",
    "Verif.Props.C130_consistent"
   ],
   "note": "The code resamples in every step when `ess_threshold` times the number of particles exceeds the number of particles, which the constructor accepts (`ess_threshold > 1`). With a lower threshold, ancestors of steps that do not resample are not random, and the argument used here (backward weights are the conditional law of the ancestor) does not apply; that case is not covered. Draws of different particles are independent."
  },
  {
   "property": "C131",
   "status": "proved",
   "theorems": [
    "Verif.Props.C131_error",
    "Verif.Props.C131_consistent"
   ],
   "note": "One real parameter per parallel filter, the others held fixed: the theorem gives each component of the gradient. `lp` is whatever `eval_priors(constrained=False)` returns as a function of that parameter. What happens when states are missing or steps are skipped is C127; in which coordinates the step is then taken is C128; that gradients accumulate over several builds is C73. As for C130, resampling in every step is needed."
  },
  {
   "property": "C132",
   "status": "partial",
   "theorems": [
    "Verif.Props.C132_entry_partial",
    "Verif.Props.C132_mean_partial",
    "Verif.Props.C132_count",
    "Verif.Props.C132_weighted_twice",
    "Verif.Props.C132_negation"
   ],
   "note": "Fails as C97 does: `step` hands the state it was given to the callbacks, not the one it returns. When SMC2 increases the number of state particles, the weights of the old state meet parameters that have already been resampled with them, so that particles are weighted twice (`C132_weighted_twice`; 0.9 instead of 0.5 in the case). `concat_parameters` is a method of the model that is not defined in /repo (nor is it the `stack_parameters` of the context); the model takes what it returns as an argument."
  },
  {
   "property": "C133",
   "status": "partial",
   "theorems": [
    "Verif.Props.C133_plain_partial",
    "Verif.Props.C133_raises",
    "Verif.Props.C133_unbatched_raises",
    "Verif.Props.C133_negation"
   ],
   "note": "Fails for parameters of a context: `vmap` slices the argument `parameters`, but `_model_likelihood` does not use it and the densities read the parameters of the captured model, which hold the values of all filters. The log-density of one particle is then a vector, and `functorch.grad` raises. Without a batch shape `_infer_shapes` still maps over dimension 0, which does not exist. What is assumed of functorch is in the comments of the model: `grad` refuses anything but scalars, `vmap` refuses to map over a dimension that does not exist, and captured tensors are not sliced. The steps of the search are C43 and C44; without functorch see C107."
  },
  {
   "property": "C134",
   "status": "partial",
   "theorems": [
    "Verif.Props.C134_complete",
    "Verif.Props.C134_refused",
    "Verif.Props.C134_gradient_partial",
    "Verif.Props.C134_negation"
   ],
   "note": "The factor is what the docstring describes, path by path (`C134_complete`), and its gradient in a parameter is a consistent estimate of the gradient of the log-likelihood (`C134_gradient_partial`). Its value is not an estimate of the log-likelihood, although `_do_pyro_ffbs` says so: it is the mean of the complete-data log-density. With fair coins as states and an observation that tells nothing it is -2 log 2 for every number of particles, while the log-likelihood is 0 (`C134_negation`). Optimisers that only use gradients are not affected; anything that compares values of the factor at different parameters is. The docstring of `do_sample_pyro` calls the method experimental and without theoretical justification."
  },
  {
   "property": "C135",
   "status": "partial",
   "theorems": [
    "Verif.Props.C135_pre_weights_partial",
    "Verif.Props.C135_linearized",
    "Verif.Props.C135_reused",
    "Verif.Props.C135_negation"
   ],
   "note": "False when a proposal object without own function is used for models of different classes: `set_model` stores the default it finds where the user's function would be, so the default found for the first model is kept as if the user had passed it. After a process that is not affine, the pre-weights for affine ones raise as well; after an affine one, those for others raise an AttributeError about `mean_scale` instead of the message (`C135_reused`). Proved if a function was passed or the classes agree, and for the linearised proposals, which refuse other models. Copies of proposals (C32) start afresh."
  },
  {
   "property": "C136",
   "status": "proved",
   "theorems": [
    "Verif.Props.C136_apply",
    "Verif.Props.C136_number",
    "Verif.Props.C136_different",
    "Verif.Props.C136_unfit",
    "Verif.Props.C136_empty"
   ],
   "note": "A mean over all entries of a vector parameter is written to all its entries (`C136_number`): the parameters of the new context then need not lie in the support of the prior. This is what `copy_` does, and is not an error. Results with fewer dimensions than the events, other than numbers, are not covered."
  },
  {
   "property": "C137",
   "status": "proved",
   "theorems": [
    "Verif.Props.C137_uniform_error",
    "Verif.Props.C137_bootstrap",
    "Verif.Props.C137_uniform_consistent"
   ],
   "note": "C110 has a bound for all models that grows with the number of observations; this one needs mixing. Only SISR with `increment = 1` and independent resamplers (multinomial) is covered, as in C110; the auxiliary filter is not."
  },
  {
   "property": "C138",
   "status": "proved",
   "theorems": [
    "Verif.Props.C138_times",
    "Verif.Props.C138_law",
    "Verif.Props.C138_error_given_state",
    "Verif.Props.C138_prediction_error",
    "Verif.Props.C138_bootstrap",
    "Verif.Props.C138_consistent"
   ],
   "note": "The method does not use the weights of the state; the weighting with them is left to the caller (as in examples/stochastic-volatility.ipynb), and a case shows that the plain mean over the paths is something else. Only hidden states are modelled, not the observations that `sample_states` draws along. The bound for whole runs is for SISR; the law given the state holds for every state."
  },
  {
   "property": "C139",
   "status": "partial",
   "theorems": [
    "Verif.Props.C139_single_filter",
    "Verif.Props.C139_kernel_partial",
    "Verif.Props.C139_offset_per_filter_raises",
    "Verif.Props.C139_offset_per_filter_mixes",
    "Verif.Props.C139_mixed_is_wrong",
    "Verif.Props.C139_negation"
   ],
   "note": "False for vector observations whose offset differs between the filters: `find_optimal_density` multiplies the precision matrix with `y - b` (`o_inv_cov.matmul(y)`, utils.py:260) without adding a dimension, so PyTorch reads the observations less offsets of all filters as one matrix. This raises unless there are as many filters as components; then, with a shared scale, filter `f` weighs all components by the precision of component `f`. Proved for scalar observations and for shared offsets."
  },
  {
   "property": "C140",
   "status": "partial",
   "theorems": [
    "Verif.Props.C140_pre_weight_partial",
    "Verif.Props.C140_single_filter",
    "Verif.Props.C140_scalar_state_raises",
    "Verif.Props.C140_scalar_state_raises_single",
    "Verif.Props.C140_vector_state_raises",
    "Verif.Props.C140_vector_state_raises_single",
    "Verif.Props.C140_one_component",
    "Verif.Props.C140_negation"
   ],
   "note": "False if one of state and observation is a scalar and the other a vector. Scalar state, vector observation: `x.value.unsqueeze(-1)` (linear.py:83) turns particles or filters into rows of a matrix and the product raises. Vector state, scalar observation: `a.squeeze(-1) * x.value` (linear.py:80) keeps the components and `Normal` raises unless the number of components equals that of filters (particles) by accident; one component gives an N x N matrix. Proved for the other cases, for batches and for a single filter. That the state stands in for its mean is C42."
  },
  {
   "property": "C141",
   "status": "partial",
   "theorems": [
    "Verif.Props.C141_draws_partial",
    "Verif.Props.C141_single_filter",
    "Verif.Props.C141_one_component_single",
    "Verif.Props.C141_one_component_batch",
    "Verif.Props.C141_negation"
   ],
   "note": "False for vector states with one component: `mean.squeeze_(-1)` (particle/utils.py:63) drops their dimension. With a single filter `MultivariateNormal` is then given a mean without dimensions and raises; with `B > 1` filters the means of the filters are taken for the components of a state (event shape `[B]`) and the draw raises. Proved for all other states, for batches and for a single filter. That `MultivariateNormal` and `Normal` refuse a covariance that is not positive is in C86, not here."
  },
  {
   "property": "C142",
   "status": "partial",
   "theorems": [
    "Verif.Props.C142_weights_partial",
    "Verif.Props.C142_single_filter",
    "Verif.Props.C142_offset_per_filter_raises",
    "Verif.Props.C142_negation"
   ],
   "note": "False, like C139, for vector observations whose offset differs between the filters: `find_optimal_density` raises, unless there are as many filters as components. Proved for scalar observations and for shared offsets, and for a single filter. The densities of the model (stochproc) are functions on tensors that are assumed to give one number per particle."
  },
  {
   "property": "C143",
   "status": "partial",
   "theorems": [
    "Verif.Props.C143_weights_partial",
    "Verif.Props.C143_single_filter",
    "Verif.Props.C143_offset_per_filter_raises",
    "Verif.Props.C143_one_component_single",
    "Verif.Props.C143_negation"
   ],
   "note": "False for vector observations whose offset differs between the filters (as C139: raises, unless there are as many filters as components) and for vector states of one component (as C141: with a single filter the call never returns). Proved otherwise, for propagated clouds with a positive definite covariance. Also proved for a single filter (`C143_single_filter`)."
  },
  {
   "property": "C144",
   "status": "proved",
   "theorems": [
    "Verif.Props.C144_backward_sampling",
    "Verif.Props.C144_fixed_lag",
    "Verif.Props.C144_normal_density",
    "Verif.Props.C144_mvn_density"
   ],
   "note": "The log-density of the latent process (stochproc) is a function on tensors that is assumed to broadcast; C144_normal_density and C144_mvn_density show that Normal (scalar states) and MultivariateNormal (vectors) do. Log-weights are numbers here, not infinite. Which states the indices point to (C37) and the law of the draws (C80) are other properties."
  },
  {
   "property": "C145",
   "status": "partial",
   "theorems": [
    "Verif.Props.C145_pairs_partial",
    "Verif.Props.C145_normal_density",
    "Verif.Props.C145_extra_dimension",
    "Verif.Props.C145_negation"
   ],
   "note": "False of the code for scalar observations stored as vectors with one component: the view at base.py:201-202 keeps that component as a dimension of its own, so that every observation is compared with the states at all times and the factor of a single filter has a number for every path (C145_extra_dimension gives the values; C145_negation is a concrete case). Proved if observations are stored with the shape the observation model has (C145_pairs_partial)."
  },
  {
   "property": "C146",
   "status": "proved",
   "theorems": [
    "Verif.Props.C146_target",
    "Verif.Props.C146_backward"
   ],
   "note": "Every step of the latent process is observed here (as many observations as transitions); otherwise see C127. Unlike in C145, the observations are reshaped to the event shape of the observation model, so their storage does not matter. Densities and prior (stochproc, pyro) are functions on tensors that are assumed to give one number per time, path and chain; C145_normal_density shows it for Normal."
  },
  {
   "property": "C147",
   "status": "proved",
   "theorems": [
    "Verif.Props.C147_nested",
    "Verif.Props.C147_normal_density"
   ],
   "note": "Log-densities are finite numbers here; infinite and NaN ones, and the law of the draws, are in C45 and C82. The observation density is a function on tensors that gives one number per sample, particle and filter; C147_normal_density shows it for Normal and scalar observations, stored as numbers or as vectors with one component."
  },
  {
   "property": "C148",
   "status": "proved",
   "theorems": [
    "Verif.Props.C148_batch",
    "Verif.Props.C148_single_filter"
   ],
   "note": "Log-weights are finite numbers here; infinite and NaN ones are in C01-C05 and C27. That systematic and multinomial resampling work column by column is C12; residual resampling refuses the two dimensions that indexing with the mask produces (C95)."
  },
  {
   "property": "C149",
   "status": "proved",
   "theorems": [
    "Verif.Props.C149_sisr_correct",
    "Verif.Props.C149_sisr_batch",
    "Verif.Props.C149_apf"
   ],
   "note": "Log-weights are finite numbers here; infinite and NaN ones are in C01-C05 and C27. That proposals work filter by filter is shown in C140-C143 and C147; for the draws of resampling schemes see C12. The full SISR move is stated for a batch; for a single filter combine C149_sisr_correct with C148_single_filter."
  },
  {
   "property": "C150",
   "status": "partial",
   "theorems": [
    "Verif.Props.C150_moves",
    "Verif.Props.C150_exchange_partial",
    "Verif.Props.C150_without_resampling",
    "Verif.Props.C150_indices_kept",
    "Verif.Props.C150_both_kept",
    "Verif.Props.C150_rejected_changed",
    "Verif.Props.C150_negation"
   ],
   "note": "False: initialize expands one column to all filters, and SISR moves without resampling hand it on, so that the in-place write of exchange reaches rejected filters too: all filters get the ancestors of the last accepted one (fixed-lag smoothing then follows wrong ancestors). Proved for every history with at least one move that makes a new tensor; harmless between filters whose indices are still the initial ones, as always for the GPF. Two states that share one tensor are C20."
  },
  {
   "property": "C151",
   "status": "proved",
   "theorems": [
    "Verif.Props.C151_columns",
    "Verif.Props.C151_filters",
    "Verif.Props.C151_quantile",
    "Verif.Props.C151_offspring",
    "Verif.Props.C151_sisr",
    "Verif.Props.C151_apf"
   ],
   "note": "Weights are finite numbers here, for infinite and NaN ones see C06-C10. The n-th filter below the threshold uses the n-th uniform number. The results C06-C09 (counts, zero weights, unbiasedness) are tied to this model by C151_offspring."
  },
  {
   "property": "C152",
   "status": "proved",
   "theorems": [
    "Verif.Props.C152_sisr_run",
    "Verif.Props.C152_sisr_single",
    "Verif.Props.C152_sisr_alone",
    "Verif.Props.C152_apf_run",
    "Verif.Props.C152_apf_alone"
   ],
   "note": "Log-weights are finite numbers here, and the process is observed at every step. Which of the random numbers a SISR filter gets for resampling depends on how many filters before it are resampled at that step (C151): C152_sisr_alone compares with the filter run alone with those numbers."
  },
  {
   "property": "C153",
   "status": "proved",
   "theorems": [
    "Verif.Props.C153_proposal",
    "Verif.Props.C153_run",
    "Verif.Props.C153_alone",
    "Verif.Props.C153_gaussian_move"
   ],
   "note": "For vectors of one component the proposal fails, see C141. Covariances have to be positive definite (else PyTorch refuses them), which is not part of the tensor model, see C86. Log-weights are finite numbers."
  },
  {
   "property": "C154",
   "status": "partial",
   "theorems": [
    "Verif.Props.C154_moments",
    "Verif.Props.C154_scalar_partial",
    "Verif.Props.C154_refused",
    "Verif.Props.C154_cube",
    "Verif.Props.C154_cube_equal_weights",
    "Verif.Props.C154_wrong",
    "Verif.Props.C154_negation"
   ],
   "note": "Mean and variance: true, for a batch or a single filter. get_covariance: true for scalar states; false for vector states: (w * x).sum(dim=0) lines up the filters of the weights with the components of the values. PyTorch refuses it unless sizes are equal or one; with as many particles as filters as components it uses the weights of other filters (right only for equal weights). Witness of wrong numbers: all particles at one place, covariance 1/4 instead of 0. For a single filter see C35."
  },
  {
   "property": "C155",
   "status": "proved",
   "theorems": [
    "Verif.Props.C155_sisr_predict",
    "Verif.Props.C155_sisr_correct",
    "Verif.Props.C155_apf_predict",
    "Verif.Props.C155_apf_correct",
    "Verif.Props.C155_gpf_predict",
    "Verif.Props.C155_gpf_correct",
    "Verif.Props.C155_propagate",
    "Verif.Props.C155_initialize",
    "Verif.Props.C155_predict",
    "Verif.Props.C155_move",
    "Verif.Props.C155_run",
    "Verif.Props.C155_gaps",
    "Verif.Props.C155_run_every",
    "Verif.Props.C155_sisr_unbiased",
    "Verif.Props.C155_apf_unbiased",
    "Verif.Props.C155_systematic",
    "Verif.Props.C155_bootstrap",
    "Verif.Props.C155_pre_weight"
   ],
   "note": "The two models of the particle filters (tensors with reshaping, broadcasting and masked indexing; functions of particle and filter) are proved to agree step by step and over series observed every k steps, with missing observations, for one batch dimension of filters and scalar or vector states with finite log-weights. Unbiasedness of SISR and APF is carried over to tensors. The bootstrap proposal and the default pre-weights on tensors follow from the transition and the observation density (C155_bootstrap, C155_pre_weight)."
  },
  {
   "property": "C156",
   "status": "proved",
   "theorems": [
    "Verif.Props.C156_average",
    "Verif.Props.C156_sisr",
    "Verif.Props.C156_apf",
    "Verif.Props.C156_multinomial"
   ],
   "note": "The bounds are those of C109-C112, carried over by C155. The resampler of SISR has to draw independently (multinomial), that of the APF steadily (multinomial, residual). Refusals of torch.multinomial are not part of the tensor model; normalised weights are positive."
  },
  {
   "property": "C157",
   "status": "proved",
   "theorems": [
    "Verif.Props.C157_fixed_lag",
    "Verif.Props.C157_backward_sampling",
    "Verif.Props.C157_recorded"
   ],
   "note": "Finite log-weights and log-densities, one batch dimension of filters, states with at most one dimension. What a draw of Categorical does to the generator may not depend on the logits. The results on Model/Smoothing (C37, C38, C129) thereby hold for the tensors. C157_recorded: the states of the filters on tensors (C155) are such recorded states."
  },
  {
   "property": "C158",
   "status": "proved",
   "theorems": [
    "Verif.Props.C158_recovers",
    "Verif.Props.C158_unique",
    "Verif.Props.C158_scores",
    "Verif.Props.C158_law",
    "Verif.Props.C158_refused"
   ],
   "note": "The transforms are functions with inverses (PyTorch); the density is taken at a given state. Standardizer takes the states of the filter after the observation has been seen, which depend on it; the law of what it then records (C98) is not covered."
  }
 ]
}