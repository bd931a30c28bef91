# Design of the formal model of pyfilter

Everything lives in `lean/Verif`.

* `Verif/Model/*`: the model of the code, function by function. Every definition cites the file and lines in
  `/repo` it mirrors, or, for behaviour of Python, PyTorch, pyro or stochproc, the lines for which it is needed.
* `Verif/Spec/*`: small specifications that do not use the helpers of the model.
* `Verif/Lemmas/*`: helper lemmas.
* `Verif/Props/*`: the property theorems `Cnn_...` and, beside each, an `example` that meets its hypotheses.

`MANIFEST.json` and the table below are generated by `tools/manifest.py` and `tools/design.py`.

A property that the code does not have as stated is kept in full view as `def Cnn_claim : Prop`; the theorem
`Cnn_negation : ¬ Cnn_claim` proves that the code violates it with a concrete witness, further theorems say how it
fails in general, and `Cnn_..._partial` proves it under the additional hypotheses under which it is true. Such
properties have status `partial`.

## Trusted base

* The kernel of Lean 4.33.0, and Mathlib. Every theorem depends at most on the axioms `propext`,
  `Classical.choice` and `Quot.sound`. There are no own axioms, no `sorry`, no `native_decide`, no `bv_decide`.
* The correspondence between the Lean definitions and the Python text. It is by reading; nothing was executed.
* PyTorch, `stochproc`, `pyro` and `tqdm` are not in the repository. What is assumed of them:
  * `Tensor.nan_to_num_(nan, posinf)` maps NaN to `nan`, `+inf` to `posinf` and, since `neginf` is not given,
    `-inf` to the lowest finite number, in place.
  * `max(dim=0)` propagates NaN; `softmax` is `exp x_i / sum_j exp x_j` with the IEEE rules for special values.
  * `searchsorted(sorted, v)` is the first position whose entry is `>= v`; `remainder(1.0)` is the fractional part.
  * `uniform_()` lies in `[0, 1)`; `torch.multinomial` and `Categorical` return indices with the given
    probabilities, never one of probability zero.
  * `masked_scatter` fills the selected positions in row-major order; indexing with tensors and masks is NumPy's
    advanced indexing; indexing with tensors copies; `a[m] = b` and methods ending in `_` write in place;
    `torch.stack`, `torch.cat` and `clone` copy; `x.data`, `expand`, passing and storing share storage.
  * `argmin` returns some position of the minimum (ties are unspecified, and no theorem depends on them).
  * `backward` adds to an existing `.grad`; `copy_` leaves `.grad` alone.
  * `cholesky_ex` of a positive definite matrix is its Cholesky factor with flag 0; the flag is positive otherwise.
    `MultivariateNormal` refuses a factor whose diagonal is not positive.
  * `TimeseriesState.copy(values)` keeps the time index, `propagate_from(values, time_increment)` adds
    `time_increment` (default 1), `hidden.propagate` advances by one.
  * `Distribution` classes declare their parameters in `arg_constraints`; that of `Independent` and of
    `TransformedDistribution` is empty. `biject_to` gives mutually inverse maps between the flattened rows.
* Numbers. Finite floating-point numbers are modelled by the reals (no rounding, no overflow, no underflow). Where
  NaN and infinities matter, by the type `XF` = NaN | -inf | +inf | finite real, with the IEEE rules for the special
  values. Theorems that are about rounding (C06) quantify over weights that do not sum to one.
* Randomness. In most theorems the outcomes of random draws are arguments, so the theorems hold for every outcome.
  In those about laws (C09, C30, C31, C70, C80, C82, C87, C88, C93-C96, C103, C104, C109-C115, C119, C120, C123-C126, C129-C131, C134, C137, C138) a generator state `ω` with law `P` is passed through the code, and
  `Spec.Draws P f ν` says that the draw `f` has law `ν` and is independent of the remaining generator state, which
  has law `P` again. `Lemmas/Stream` and `Lemmas/Categorical` construct such generators from independent streams.

## What is modelled

| source | model |
|---|---|
| `utils.py` `normalize`, `get_ess` | `Model/Utils`, on `Model/XFloat` |
| `resampling.py` | `Model/Resampling` |
| `container.py`, `state.py` (saving, loading) | `Model/Container` |
| `filters/result.py`, `filters/particle/state.py` (aliasing, append, resample, exchange, saving) | `Model/FilterResult` |
| `filters/base.py` `filter`, `batch_filter`, options | `Model/Filter` |
| `filters/particle/sisr.py`, `apf.py`, `gpf.py`, `utils.py`, `base.py` `initialize` | `Model/Particle`, `Model/Bootstrap` |
| `filters/particle/base.py` configuration, `copy`, `increase_particles` | `Model/Config` |
| `filters/particle/utils.py`, `state.py` moments and covariance | `Model/Moments` |
| `filters/particle/base.py` smoothing, pyro slices | `Model/Smoothing` |
| `filters/particle/state.py` `predict_path` | `Model/PredictPath` |
| `filters/particle/proposals/linear.py`, `utils.py`, `nested.py`, `linearized.py`, `base.py` | `Model/Proposals`, `Model/KernelProposal` |
| `filters/particle/proposals/approximate.py`, `state.py` `get_predictive_density` | `Model/GaussianProposal` |
| `inference/context.py`, `parameter.py`, `prior.py` | `Model/Context` |
| `inference/qmc.py` | `Model/Qmc` |
| `inference/batch/mcmc/*` | `Model/Pmmh` |
| `inference/batch/mcmc/proposals/gradient.py` (`_model_likelihood`, location of the kernel) | `Model/GradientScore` |
| `inference/utils.py` (`calc_mean_chol`, `construct_mvn`), `inference/batch/mcmc/proposals/symmetric_mh.py` | `Model/Symmetric` |
| `inference/sequential/*` (base, smc2, ness, nessmc2, state, collectors' interface, kernels/mh, online) | `Model/Sequential` |
| `inference/sequential/threshold.py` | `Model/Threshold` |
| saving and loading: `inference/state.py`, `sequential/state.py`, `batch/mcmc/state.py` | `Model/Checkpoint` |
| `inference/sequential/kernels/jittering.py`, `online.py` | `Model/Jitter` |
| `resampling.py` `multinomial`, `residual` as resampling functions with a generator | `Model/Multinomial` |
| `copy` of filter results and algorithm states | `Model/Copy` |
| pickling and deep-copying of `inference/parameter.py` and `inference/context.py` | `Model/Pickle` |
| `inference/prior.py`: evaluating priors and bijections; `patch`, `to` | `Model/Prior`, `Model/Patch` |
| `inference/logging.py`, `inference/plot.py`, `inference/sequential/collectors.py` | `Model/Logging`, `Model/Plot`, `Model/Collectors`, `Model/ParameterPosterior` |
| constructors of the sequential algorithms | `Model/Construct` |
| `filters/particle/proposals/utils.py` `find_mode_legacy` | `Model/ModeLegacy` |
| `filters/particle/proposals/utils.py` `_infer_shapes`, `initialize`, `_model_likelihood` (functorch) | `Model/Functorch` |
| `filters/particle/proposals/utils.py` `find_optimal_density`, `linear.py` `sample_and_weight` and `pre_weight` on tensors | `Model/Tensor` |
| `filters/particle/utils.py` `get_filter_mean_and_variance`, `state.py` `get_predictive_density`, `approximate.py` `GaussianProposal` on tensors | `Model/TensorGaussian` |
| `base.py` `_weight_with_kernel`, `linear.py` `sample_and_weight`, `approximate.py` `GaussianLinear` on tensors | `Model/TensorWeights` |
| `filters/particle/base.py` `_do_sample_ffbs`, `_do_sample_fl`, `utils.py` `batched_gather` on tensors | `Model/TensorSmoothing` |
| `filters/particle/base.py` `_do_pyro_ffbs` (the factor) on tensors | `Model/TensorPyro` |
| `inference/batch/mcmc/proposals/gradient.py` `_model_likelihood` on tensors | `Model/TensorGradient` |
| `filters/particle/proposals/nested.py` `sample_and_weight` on tensors | `Model/TensorNested` |
| `filters/particle/sisr.py` `predict`, `utils.py` `normalize` and `get_ess` on tensors | `Model/TensorSisr` |
| `inference/sequential/collectors.py` `Standardizer._standardize` | `Model/Residuals` |
| `filters/particle/sisr.py` `correct`, `apf.py`, `particle/utils.py` `log_likelihood`, `proposals/bootstrap.py`, `proposals/base.py` `pre_weight` on tensors | `Model/TensorMove` |
| `resampling.py` `_wrapper`, `systematic` and `multinomial` on tensors | `Model/TensorResampling` |
| `filters/base.py` `filter`, `batch_filter`, `particle/state.py` `create_state_from_prediction` on tensors | `Model/TensorRun` |
| `filters/particle/state.py` stored moments and `get_covariance` on tensors | `Model/TensorMoments` |
| `filters/particle/gpf.py`, `proposals/approximate.py` `GaussianProposal` on tensors | `Model/TensorGpf` |
| the tensor models of the particle filters against `Model/Particle` (agreement, C155) | `Spec/TwoModels` |
| `filters/particle/base.py` `initialize`, `sisr.py`, `apf.py`, `gpf.py`, `state.py` `exchange`: storage of previous indices | `Model/SharedIndex` |
| `filters/particle/base.py` `_do_pyro_ffbs`, `do_sample_pyro` | `Model/Pyro` |
| `filters/particle/proposals/pre_weight_funcs.py`, `proposals/base.py` (`set_model`, `pre_weight`) | `Model/PreWeight` |
| PMMH with a particle filter and priors put together | `Model/PmmhFilter` |
| the loop of `PMMH.fit` with the random walk, on independent random numbers | `Model/PmmhRun` |
| `QuasiInferenceContext.initialize_parameters`, `QuasiMultivariateNormal` | `Model/QuasiSample` |

## What is not modelled

* What `functorch` does with the code is stated in `Model/Functorch` (C133). Elsewhere the derivatives that `ModeFinder`
  computes are taken to be those of each particle's log-density.
* Devices, dtypes, progress bars, drawing of plots, `pyro` itself, automatic differentiation beyond "returns the
  gradient", performance and memory.
* Shapes are modelled where the code manipulates them (broadcasting, gather, scatter, stacking). Elsewhere a tensor
  is a function of its indices. Batches have at most one dimension (nested batches are refused by the code).
* The particle filters are modelled twice: as functions of particle and filter (`Model/Particle`) and on tensors
  (`Model/TensorSisr`, `TensorMove`, `TensorGpf`, `TensorRun`). C155 (filters) and C157 (smoothing) prove that they agree for finite log-weights; infinite
  and NaN log-weights, and the clock, are in the former only.
* `expand` in `filters/particle/base.py:99` makes index tensors whose columns share storage. This is modelled in
  `Model/SharedIndex` (C150); `Model/FilterResult` gives every column its own storage.
* `LocalLinearization` raises on construction (`local_linearization.py:40`) and has no model.
* `zip` in `FilterResult.exchange` truncates to the shorter history; the model is for results of equal windows.
* In `Model/Pmmh` and `Model/Sequential` a filter run is a function of parameters, observations, the number of
  particles and noise, per slot; filters themselves are in `Model/Particle`. The resampling threshold, which `copy`
  changes (C32), is not part of a slot.

## Properties

<!-- table -->
| id | property | model | proof | status | theorems (file in Props) | remarks |
|---|---|---|---|---|---|---|
| C01 | Normalised weights are a probability vector | `normalize1/2` (Utils) | algebra of exp; case analysis on NaN, ±inf | partial | `C01_normalized_is_probability_partial`, `C01_fails_without_usable_weight`, `C01_negation` (Weights.lean) | False when every log-weight is NaN or +inf (result is NaN, the uniform fallback is dead code); proved otherwise. |
| C02 | Normalisation ignores a common offset and respects order | `normalize1/2` | algebra | proved | `C02_shift_invariant`, `C02_monotone`, `C02_strictly_monotone` (Weights.lean) |  |
| C03 | Normalising the same weights twice gives the same answer | `normalize1/2` returning also the cleaned argument | case analysis | partial | `C03_repeatable_partial`, `C03_second_read_uniform`, `C03_negation` (Weights.lean) | False in the presence of NaN or +inf (cleaning in place changes the second result); proved otherwise. |
| C04 | ESS lies between 1 and N | `getEss1/2` (Utils) | Cauchy-Schwarz, both equality cases | proved | `C04_ess_bounds`, `C04_ess_bounds_normalized` (Weights.lean) |  |
| C05 | Parallel filters do not influence each other's weights | `normalize2`, `getEss2` | extensionality | proved | `C05_normalize_columnwise`, `C05_columns_independent` (Weights.lean) |  |
| C06 | Systematic resampling returns valid, ordered indices | `systematic` (Resampling) | monotonicity of first positions in a sorted list | proved | `C06_systematic_valid_1d`, `C06_systematic_valid_2d`, `C06_systematic_valid_supplied` (Resampling.lean) |  |
| C07 | Systematic offspring counts are floor or ceiling of N*w | `systematic` | counting integers in half-open intervals of length N·w_i | proved | `C07_systematic_offspring`, `C07_systematic_offspring_1d`, `C07_uniform_identity` (Resampling.lean) |  |
| C08 | Particles with zero weight are never selected | `systematic` | empty interval; counterexample at u = 0 | partial | `C08_zero_weight_not_selected_partial`, `C08_negation` (Resampling.lean) | False for the uniform draw 0; proved for positive draws. |
| C09 | Systematic resampling is unbiased | `systematic` | Lebesgue integral over the uniform draw | proved | `C09_systematic_unbiased` (Resampling.lean) |  |
| C10 | A caller-supplied uniform determines the resampling | `_wrapper` with its keyword handling | unfolding, counterexample | partial | `C10_supplied_uniform_partial`, `C10_one_dimensional_ignores_u`, `C10_negation`, `C10_float_refused` (Resampling.lean) | False for one-dimensional weights (keyword lost) and Python floats (refused); proved for matrices and tensors. |
| C11 | Residual resampling keeps the deterministic part | `residual` with the multinomial outcome as argument | counting | proved | `C11_residual`, `C11_residual_refuses_matrices` (Resampling.lean) |  |
| C12 | Batched resampling acts filter by filter | `_wrapper` on matrices | extensionality | proved | `C12_batched_columnwise`, `C12_batched_columnwise_supplied` (Resampling.lean) |  |
| C13 | Recording windows keep exactly the most recent entries | `make_dequeue`, `Deq` | list induction | proved | `C13_window`, `C13_append`, `C13_recorded` (Container.lean) |  |
| C14 | Named histories survive save and load | `TensorContainer.state_dict/load_state_dict`, keys as character lists | invariant over all operations, string lemmas, counterexample | partial | `C14_round_trip_partial`, `C14_invariant`, `C14_negation`, `C14_shadowed_history_lost` (Container.lean) | False for names containing 'tensor_' and for a history shadowed by a tuple of the same name; proved otherwise. |
| C15 | A checkpoint can be loaded more than once | same, with the dictionary as a mutable argument | unfolding | partial | `C15_second_load_is_empty`, `C15_negation`, `C15_other_entries_kept_partial` (Container.lean) | False: loading empties the dictionary of the histories; proved that a second load restores nothing, and what is kept. |
| C16 | Named histories behave like a map | `TensorContainer` methods | simulation against a specified map | proved | `C16_behaves_like_map` (Container.lean) |  |
| C17 | The total log-likelihood is the sum of the step log-likelihoods | `FilterResult` on a heap of tensors | separation invariant, induction over histories | partial | `C17_initial_counted_twice`, `C17_total_partial`, `C17_negation` (FilterResult.lean) | False for initial states with non-zero log-likelihood (counted twice); proved otherwise for every sequence of appends and resamplings. |
| C18 | Recorded states keep their own log-likelihood | same | same | partial | `C18_appended_state_keeps_ll_partial`, `C18_initial_state_becomes_total`, `C18_negation` (FilterResult.lean) | False for the initial state (its log-likelihood is the accumulator); proved for every appended state. |
| C19 | Resampling parallel filters keeps everything aligned | same, `resample` | same; aliasing counterexample | partial | `C19_aligned_partial`, `C19_state_fields_wrong`, `C19_negation` (FilterResult.lean) | False for log-likelihood and moments stored in the states; proved for the accumulator, recorded moments, particles, weights and indices. |
| C20 | Exchanging accepted filters replaces exactly the accepted slots | same, `exchange` | same; counterexample with shared index tensor | partial | `C20_exchange_partial`, `C20_negation` (FilterResult.lean) | False when two recorded states share an index tensor and the other result's do not agree; proved otherwise. |
| C21 | A filter result survives save and load | same, `state_dict/load_state_dict` | unfolding on the heap | proved | `C21_round_trip`, `C21_refused` (FilterResult.lean) |  |
| C22 | A checkpoint is a snapshot | same | separation invariant; counterexample for the accumulator | partial | `C22_snapshot_partial`, `C22_ll_is_live`, `C22_negation` (FilterResult.lean) | False for the log-likelihood (live reference); proved for everything else. |
| C23 | Filtering T observations records T+1 entries | `FilterOps.batchFilter` (Filter) | induction over observations | proved | `C23_one_entry_per_observation`, `C23_moment_count` (Filter.lean) |  |
| C24 | Observations hit every k-th latent step | `FilterOps.filter`, `loop` | loop variant (time modulo k), induction | proved | `C24_every_kth_step`, `C24_recorded_times` (Filter.lean) |  |
| C25 | A missing observation is a pure prediction | `FilterOps.filter`, `createState` | unfolding | proved | `C25_missing_observation` (Particle.lean) |  |
| C26 | The impute strategy imputes | `FilterOptions.nanStrategy` | both strategies compute the same | partial | `C26_skip_partial`, `C26_strategies_agree`, `C26_negation` (Filter.lean) | False: nan_strategy is never read; both strategies give the same move. |
| C27 | SISR resamples exactly the degenerate filters | `sisrPredict` with row-major `maskedScatter` | rank/enumeration lemma for scatter | proved | `C27_resamples_exactly_degenerate` (Particle.lean) |  |
| C28 | SISR weight and likelihood update | `sisrCorrect`, `logLikelihood` | algebra in `XF` | proved | `C28_sisr_update` (Particle.lean) |  |
| C29 | APF weight and likelihood update | `apfCorrect` | algebra in `XF` | proved | `C29_apf_update` (Particle.lean) |  |
| C30 | The SISR likelihood estimate is unbiased | `bootstrapModel`, SISR, `filterAll`, systematic resampler | backward function, integral over generator states, induction over time; multi-step | proved | `C30_sisr_unbiased`, `C30_proper_proposals`, `C30_systematic` (Unbiased.lean) | Expectation over a generator whose states have law P and whose draws are independent of what is left (Spec.Draws). C30_sisr_unbiased: any unbiased resampler, any threshold, missing observations, any observation frequency. C30_systematic: with the default resampler. C30_proper_proposals: any proposal with proper importance weights. Weights are exact reals; finite log-densities (positive densities). |
| C31 | The APF likelihood estimate is unbiased | same for the APF | same | proved | `C31_apf_unbiased`, `C31_proper_proposals`, `C31_systematic` (Unbiased.lean) | As C30, for the APF with any finite measurable pre-weight function (it may depend on all particles). |
| C32 | Copying a filter preserves its configuration | `Config`: constructor and `copy` | unfolding, counterexample | partial | `C32_copy_partial`, `C32_threshold_scaled`, `C32_threshold_after_copies`, `C32_copy_always_resamples`, `C32_pre_weight_function_lost`, `C32_negation` (Config.lean) | False: the threshold is multiplied by the particle count and the pre-weight function is lost; the rest is proved kept. |
| C33 | Increasing particles scales the threshold along | `Config.increaseParticles` | induction | proved | `C33_relative_threshold_kept`, `C33_constructed` (Config.lean) |  |
| C34 | Every filter move advances the clock | `ProposalKind.increment`, filters | case analysis; clock stands still by induction | partial | `C34_advances_partial`, `C34_clock_stands_still`, `C34_negation` (Filter.lean) | False for the Gaussian and Gaussian-linearised proposals (copy keeps the time index): the clock stands still; proved for the others. |
| C35 | Filter moments are moments of the weighted particles | `Moments` | convexity, sums of squares; broadcasting counterexample | partial | `C35_moments_partial`, `C35_weights_are_probabilities`, `C35_stored`, `C35_covariance_refused`, `C35_covariance_shape`, `C35_covariance_wrong`, `C35_negation` (Moments.lean) | False for get_covariance (refuses vector states with parallel filters of different sizes, returns wrong numbers when sizes agree by accident); mean, variance and covariance formulas proved. |
| C36 | Total collapse is reported as likelihood zero | `logLikelihood` | case analysis | partial | `C36_collapse_partial`, `C36_collapse_is_nan`, `C36_negation` (Particle.lean) | False: the step log-likelihood is NaN when all importance weights are -inf; proved when some particle of weight zero is possible. |
| C37 | Fixed-lag smoothing returns true ancestral paths | `smoothFl` with ghost ancestry `Spec.Lineage` | induction over lineages; counterexample | partial | `C37_apf_ancestral_paths`, `C37_apf_runs`, `C37_sisr_ancestral_paths_partial`, `C37_sisr_always_resampling`, `C37_sisr_runs`, `C37_sisr_stale`, `C37_negation` (Smoothing.lean) | False for SISR: a step without resampling keeps the previous step's indices, which smoothing then applies once more. Proved in full for APF and for SISR that resamples at each step, and as long as the stored indices are the initial ones. |
| C38 | Smoothed paths consist of filtered particles in time order | `smoothFfbs`, `smoothFl` | induction over states | proved | `C38_paths_of_particles`, `C38_backward_kernel` (Smoothing.lean) |  |
| C39 | Smoothing method names are case-insensitive | `smooth`, `doSamplePyro` method dispatch | case analysis on strings | partial | `C39_method_names_partial`, `C39_capital_fl_refused`, `C39_negation` (Smoothing.lean) | False: fixed lag is compared without lowering, so FL, Fl and fL are refused; everything else proved. |
| C40 | Pyro likelihood pairs observations with the right states | `pyroPairs` (slicing) | position arithmetic over C24 | proved | `C40_slice_pairs_observations`, `C40_unrecorded_mispairs` (Smoothing.lean) |  |
| C41 | The linear-Gaussian proposal is optimal | `findOptimalDensity` (Proposals) | completing the square, matrix identities | proved | `C41_sampled_kernel`, `C41_weight_is_predictive`, `C41_weight_constant`, `C41_weight_is_marginal` (Gpf.lean, Proposals.lean) |  |
| C42 | The linear-Gaussian pre-weight is the predictive density | `linearPreWeight` | same; counterexamples | partial | `C42_random_walk_partial`, `C42_uses_previous_state`, `C42_not_one_number`, `C42_negation` (Proposals.lean) | False: the state is used in place of its conditional mean, and a scalar observation of a vector state gives one number per component. Proved for random walks. |
| C43 | First-order linearisation follows the gradient | `ModeFinder.find_mode`, legacy | unfolding; counterexample | partial | `C43_legacy_partial`, `C43_ignores_gradient`, `C43_negation` (Proposals.lean) | False for the default (functorch) finder, which adds the step size whatever the gradient; proved for the legacy finder. |
| C44 | Second-order linearisation is a safeguarded Newton step | scalar second-order step | algebra | proved | `C44_safeguarded_step`, `C44_uphill`, `C44_gaussian_exact` (Proposals.lean) |  |
| C45 | The nested proposal is properly weighted | `nestedWeight`, `nestedProb` | algebra of softmax | proved | `C45_properly_weighted` (Proposals.lean) |  |
| C46 | The batch shape of a context is set once | `Context` state machine | invariant over histories | proved | `C46_set_once`, `C46_first`, `C46_needed` (Context.lean) |  |
| C47 | A named parameter is created once | same | same | proved | `C47_created_once`, `C47_others_untouched` (Context.lean) |  |
| C48 | A refused registration leaves the context unchanged | same | counterexample, unfolding | partial | `C48_known_name_partial`, `C48_name_is_lost`, `C48_negation` (Context.lean) | False: a refused batched prior is stored all the same and its name is lost for good; proved for known names and without batch shape. |
| C49 | Stacking and unstacking parameters are inverse | `stackParameters`, `unstackParameters` | induction over parameters, chunk lemmas | proved | `C49_stack_unstack`, `C49_unstack_stack`, `C49_layout` (Context.lean) |  |
| C50 | A refused update changes no parameter | `unstackParameters` | induction over parameters | partial | `C50_later_unchanged_partial`, `C50_wrong_width`, `C50_negation` (Context.lean) | False: parameters before the one out of bounds have been overwritten; proved that it and all later ones are unchanged. |
| C51 | Exchange and resample act row-wise on all parameters | `exchange`, `resample` | induction, masked scatter lemma | proved | `C51_exchange`, `C51_resample` (Context.lean) |  |
| C52 | A context survives save and load | `stateDict`, `loadStateDict` | induction over names | partial | `C52_restores_partial`, `C52_refuses_names`, `C52_refuses_argument`, `C52_accepts_other_prior`, `C52_negation` (ContextCopy.lean) | False: wrapped priors (Independent, transformed) have no declared arguments, so a state saved under another prior is accepted. Proved: names are checked, plain arguments are checked, and equal ones are restored. |
| C53 | A loaded context is independent of its source | same, storage of parameters | separation | partial | `C53_via_disk_partial`, `C53_shared`, `C53_negation` (ContextCopy.lean) | False: a state dictionary loaded as it is shares storage with its source; proved for a dictionary that went through disk. |
| C54 | Copying a context yields an equal, independent context | `copy`/`applyFun` | separation, induction | proved | `C54_copy`, `C54_empty` (ContextCopy.lean) |  |
| C55 | Leaving a context block restores the active context | context stack, code made of with-blocks | structural induction over code | partial | `C55_active`, `C55_no_reentry_partial`, `C55_same_contexts`, `C55_reentry`, `C55_negation` (ContextStack.lean) | False under re-entry (leaving removes the first entry); proved without re-entry, and that the same contexts stay active in every case. |
| C56 | Contexts are thread-local | thread-indexed stacks | unfolding | proved | `C56_own_operations`, `C56_others`, `C56_foreign_thread`, `C56_leave` (ContextStack.lean) |  |
| C57 | Suspending prior verification is scoped | `no_prior_verification` blocks | structural induction over code | partial | `C57_unnested_partial`, `C57_on_again`, `C57_off_inside`, `C57_nested`, `C57_negation` (ContextStack.lean) | False for nested blocks (the inner one switches verification on for the rest of the outer one); proved for unnested blocks. |
| C58 | Prior equivalence means equal distributions | `verifySamePrior` | case analysis, broadcasting | partial | `C58_plain_partial`, `C58_family`, `C58_independent`, `C58_transformed`, `C58_broadcast`, `C58_nan`, `C58_negation` (ContextStack.lean) | False for Independent and transformed distributions, for arguments that broadcast and for NaN; proved for plain distributions with arguments of equal lengths. |
| C59 | Sequential bookkeeping matches the number of observations | sequential algorithms (Sequential) | invariant over runs | proved | `C59_counters`, `C59_data` (Sequential.lean) |  |
| C60 | SMC2 rejuvenates exactly when degenerate | `smc2Step` | case analysis | partial | `C60_trigger_partial`, `C60_ninf_unseen`, `C60_negation` (Sequential.lean) | False of the code: get_ess cleans the accumulated weights in place before smc2.py:60 looks at them, so a weight of -inf is never seen as non-finite (C60_negation). True when no accumulated weight is -inf. |
| C61 | Threshold schedules are what they say | `Threshold` | real analysis, sorted lists | partial | `C61_constant`, `C61_decaying`, `C61_interval_partial`, `C61_rising`, `C61_negation`, `C61_zero_half_life` (Threshold.lean) | False for interval thresholds with a value below the ending value, which acts as a lower bound; everything else proved. |
| C62 | The combined algorithm switches after the configured number of observations | `Combined` | induction over runs | partial | `C62_split_partial`, `C62_negation` (Sequential.lean) | False of the code: base.py:164 compares with <=, so the first algorithm processes switch + 1 observations (C62_split_partial, C62_negation). |
| C63 | Fixed-width NESS updates once per block | `FixedWidthNESS` | arithmetic modulo block_len | partial | `C63_schedule_partial`, `C63_once_per_block_partial`, `C63_zero_block`, `C63_negation` (Sequential.lean) | False of the code: the counter is increased before it is tested, so the update comes after block_len - 1, 2 block_len - 1, ... observations (C63_negation). Proved: the exact schedule and that exactly one update falls due in any block_len consecutive observations; block_len 0 raises. |
| C64 | State-particle increases are capped | `increaseStates` | invariant over runs | proved | `C64_capped`, `C64_first_observations`, `C64_results` (Sequential.lean, SequentialMore.lean) | C64_capped, C64_first_observations, C64_results: the filter results always have been computed with the current number of state particles, for every algorithm, also after TooManyIncreases. |
| C65 | The rejuvenation loop judges by the average acceptance rate | `rejuvenate` loop | induction over steps | proved | `C65_rejuvenation` (Sequential.lean) |  |
| C66 | Every parameter particle keeps the filter that was run for it | slots of parameters and results | invariant over runs | partial | `C66_smc2_partial`, `C66_live_partial`, `C66_pmmh_partial`, `C66_pmmh_initial`, `C66_quasi_initial`, `C66_negation` (SequentialMoves.lean) | False for PMMH (the model is built before the means of the priors are written) and for SMC2 with a quasi-random context (the same with the quasi-random points). Proved for SMC2 with the plain context, for live parameters with any context, and for PMMH slots that have accepted a candidate. |
| C67 | Callbacks run once per observation on the new state | `step`, `register_callback` | induction over callbacks | partial | `C67_once_partial`, `C67_seen_partial`, `C67_registered`, `C67_negation` (SequentialMoves.lean) | False of the code: after a particle increase the callbacks get the discarded state object (C67_negation). Proved: once per observation, in order; registration; which object they get. |
| C68 | Parameter weights accumulate the likelihood since the last update | accumulated weights | invariant over runs | partial | `C68_since_start_partial`, `C68_since_rejuvenation_partial`, `C68_zero_likelihood`, `C68_negation` (SequentialMoves.lean) | False of the code for log-likelihoods -inf, which become the lowest finite number (C68_negation). Proved for finite log-likelihoods and ratios. |
| C69 | Online jittering keeps parameter and filter of the same ancestor | `onlineUpdate` (Jitter), `discreteMix` | unfolding | proved | `C69_same_ancestor`, `C69_state` (Jitter.lean, OnlineMove.lean) |  |
| C70 | PMMH accepts with the Metropolis-Hastings probability | `runPmmh` (Pmmh) | measure of the acceptance event; detailed balance on product space | proved | `C70_probability`, `C70_ratio`, `C70_undefined_rejected`, `C70_move`, `C70_reversible`, `C70_marginal`, `C70_invariant` (Pmmh.lean) | Reversibility and invariance are for the state of one slot (parameters and random numbers of its filter) and proposals whose density in a slot depends on the parameters of that slot (the random walk, by C72). The accept probability holds for every proposal object. |
| C71 | The PMMH chain records every iteration | `fit` loop and `PMMHResult` | induction over iterations | proved | `C71_append`, `C71_record`, `C71_repeat` (Pmmh.lean) |  |
| C72 | The random-walk kernel stays centred at the current parameters | `RandomWalk.exchange` | invariant over iterations | proved | `C72_centred` (Pmmh.lean) |  |
| C73 | The gradient proposal uses the current gradient | `GradParam` with `.grad` accumulation | induction over builds | partial | `C73_first_partial`, `C73_accumulates`, `C73_negation` (Pmmh.lean) | False of the code: PyTorch adds to an existing .grad, and build never clears it, so from the second build on one context the location is displaced by the gradients of all earlier builds. True of the first build. |
| C74 | Shrinkage kernels preserve mean and variance | shrinking and Liu-West kernels | algebra of weighted moments | partial | `C74_mean`, `C74_variance_partial`, `C74_robust_zero`, `C74_negation` (Jitter.lean) | The mean part is proved. The variance part is false when the robust variance is the interquartile one (the points are shrunk relative to the weighted variance); proved when both variances agree, and that the total lies between them. |
| C75 | Jitter scale is robust and bounded below | `robustVar`, `jitter` | order | partial | `C75_robust`, `C75_min_std_partial`, `C75_float`, `C75_negation` (Jitter.lean) | False for the constant kernel with a Python float, which raises (float has no clamp); everything else proved. |
| C76 | Quasi-random points stay strictly inside the unit cube | `EngineContainer.sample` (Qmc) | intervals, fractional part | proved | `C76_inside`, `C76_one_rotation`, `C76_plain` (Qmc.lean) |  |
| C77 | The second-order proposal has a valid covariance | vector second-order step | spectral argument on quadratic forms; counterexamples | partial | `C77_negative_definite_partial`, `C77_saddle`, `C77_ill_conditioned`, `C77_negation` (Proposals.lean) | False for indefinite Hessians and for positive definite ones with condition number above two, since only the smallest eigenvalue is looked at; proved for negative definite ones. |
| C78 | Quasi-random initialisation sets every parameter from its own columns | `QuasiInferenceContext.initialize_parameters` | induction over parameters | partial | `C78_same_size_partial`, `C78_simplex`, `C78_negation` (ContextCopy.lean) | False for priors whose unconstrained event has another number of entries (raises); proved otherwise. |
| C79 | NESS moves the parameters exactly when degenerate | `NESS.do_update_particles` | case analysis, runs | partial | `C79_trigger_partial`, `C79_first`, `C79_negation` (SequentialMore.lean) | C79_negation: a weight of -inf has been replaced by the lowest finite number before the check, so it does not trigger. C79_trigger_partial: NaN and +inf do, and the ESS; with callbacks that leave the weights alone. C79_first: before the first observation. |
| C80 | Law of the FFBS paths | `smoothFfbs` | integral over generator states, induction over states | proved | `C80_path_law` (Backward.lean) | For any unbiased resampler and categorical draws (randomness as in C30); Lemmas/Categorical shows that drawing by inversion satisfies the hypothesis, the case uses systematic resampling. Weights and log-densities finite. |
| C81 | Backward simulation joins states one step apart | `filterAll` and the recorded times | arithmetic over C24 | partial | `C81_recorded_steps_partial`, `C81_unrecorded_gaps`, `C81_negation` (Backward.lean) | C81_negation: with observe_every_step > 1 and without recording of intermediary states the recorded states are observe_every_step apart (C81_unrecorded_gaps), yet the density of a single step is used. C81_recorded_steps_partial: holds if intermediary states are recorded or every step is observed. |
| C82 | Unbiased likelihood estimates with every proposal | `linearizedModel`, `linearModelFilter`, `nestedModel` | change of variables for normal kernels, integral over generator states, C30/C31 | proved | `C82_linearized_sisr`, `C82_linearized_apf`, `C82_linear_sisr`, `C82_linear_apf`, `C82_nested_sisr`, `C82_nested_apf` (KernelProposals.lean) | Linearized: for any normal kernel with invertible scale that depends measurably on the particle, so for both mode finders whatever they return; the transition must have the density used in the weights. LinearGaussianObservations: for normal increments with positive scales, positive observation noise and any Cholesky routine with L Lᵀ = S that is measurable. NestedProposal: any transition kernel and any positive number of inner samples. Random draws as in C30/C31; the APF theorems take any finite measurable pre-weight. Inputs where a proposal raises or forms non-finite kernels (C42, C44, C77) are outside the hypotheses. |
| C83 | The SMC2 kernel is the fitted normal distribution | `calcMeanChol`, `constructMvn`, `symmetricMh` (Symmetric) | matrix algebra | proved | `C83_fitted`, `C83_fallback` (Symmetric.lean) | `cholesky_ex` is any function that factors positive definite matrices and sets the flag on other symmetric ones. A cloud in which a parameter has a single value cannot be rejuvenated (ValueError). |
| C84 | SMC2 accepts with the Metropolis–Hastings ratio of its kernel | `smcUpdate` with `symmetricMh` | unfolding, C83; counterexample with two particles | partial | `C84_acceptance`, `C84_same_moments_partial`, `C84_negation` (Symmetric.lean) | False: the reverse density is that of a normal distribution fitted to the candidates (run_pmmh builds a new kernel on the proposal context with uniform weights), not of the one they were drawn from (C84_acceptance, C84_negation). C84_same_moments_partial: true when the candidates have the mean and covariance of the weighted parameters. Stated for one PMMH step without an increase. |
| C85 | The random walk in SMC2 starts from the current parameters | `smcUpdate` with `randomWalk` | unfolding; counterexample with two particles | partial | `C85_acceptance`, `C85_unmoved_partial`, `C85_negation` (Symmetric.lean) | False: the kernel is built before the context is resampled (mh.py:55-57), so it is centred at the parameters the slot had before (C85_acceptance, C85_negation). C85_unmoved_partial: true for slots resampled to themselves. Stated for one PMMH step without an increase. |
| C86 | A move of the Gaussian particle filter | `gpfMove`, `gaussianSample`, `gaussianLinearizedSample`, `gaussianLinearSample`, `predictiveDensity` | unfolding; C41 for the linear kernel | proved | `C86_gaussian`, `C86_linearized`, `C86_linear` (Gpf.lean) | C86_gaussian, C86_linearized and C86_linear, one per proposal. For GaussianLinear the kernel and the weight are spelled out (conditioned normal, predictive density). For a vector state with one component see C141. |
| C87 | What the likelihood of the Gaussian particle filter estimates | `gpfMove` with random numbers drawn independently | law of the samples (`gauss_law`), importance sampling, Fubini | proved | `C87_gaussian`, `C87_linearized`, `C87_linear` (Gpf.lean) | C87_gaussian, C87_linearized and C87_linear. The observation density is read at the time of the old particles (C34). |
| C88 | How many particles the Gaussian particle filter needs | `gpfMove` with `affinePropagate` | rank of the differences of the particles; a nonzero polynomial in independent normal numbers almost surely does not vanish | proved | `C88_too_few`, `C88_enough` (Gpf.lean) | C88_too_few and C88_enough, each for the three proposals. |
| C89 | A saved sequential algorithm resumes where it stopped | Model/Checkpoint.lean: SeqObj.new, newSmc2, init, append, appendData, record, observe, rejuvenate, increase, stateDict, loadStateDict over the heap of Model/FilterResult.lean | separation invariant (Lemmas/Checkpoint.lean), round trip of the two concrete history names, simulation of the specification SeqView.observe | proved | `C89_round_trip`, `C89_resume`, `C89_continues`, `C89_target` (Checkpoint.lean) | Proved for every execution of initialization, observations, in-place rejuvenations, masked exchanges and increases, with storage sharing. |
| C90 | A checkpoint of a sequential algorithm is a snapshot | as C89 | exact description of what a later load gives; negation on a concrete SMC2 state | partial | `C90_mixture`, `C90_kept_partial`, `C90_negation`, `C90_second_load` (Checkpoint.lean) | False: state_dict holds the live weight tensor (and the live log-likelihood), so a checkpoint loaded after k further observations combines the old counter, ESS history, parsed data and moments with the newest weights (C90_mixture); a second load restores no histories (C90_second_load). |
| C91 | A saved PMMH result keeps its chain | Model/Checkpoint.lean: PmmhObj.new, updateChain, stateDict, loadStateDict | C21 for the filter result, unfolding for the chain | partial | `C91_chain_lost`, `C91_chain`, `C91_filter_partial`, `C91_negation` (Checkpoint.lean) | False for the chain: PMMHResult inherits state_dict and never stores samples (C91_chain_lost). The filter result is restored (C91_filter_partial). |
| C92 | The unconstrained prior is the prior in other coordinates | `Model/Prior.lean`: torch transforms `exp`, `sigmoid`, `affine` and their composition by `biject_to`, `get_constrained`, `get_unconstrained`, `unconstrained_prior().log_prob`, `eval_prior`, the column slices of `unstack_parameters`, `eval_priors` | Derivative of every bijection equals (up to sign) the exponential of its log-Jacobian; bijections are onto the supports and undone by their inverses; change of variables with a diagonal derivative; the slices of the row are a measure preserving equivalence | proved | `C92_defined`, `C92_unstack`, `C92_change_of_variables`, `C92_constrained` (Prior.lean) | Supports with a componentwise bijection (real line, half-lines, intervals). Simplices, Cholesky factors and other supports whose bijection mixes components are not modelled, nor is torch's clipping of the sigmoid. |
| C93 | PMMH with a particle filter targets the exact posterior | Model/PmmhFilter.lean builds the PMMH environment from the filter model at the parameters read from the context; Spec/PmmhFilter.lean states model and likelihood | SISR: the filter whose generator state carries the parameters is covered by C30's induction, which gives a jointly measurable estimate; APF: an induction of its own for joint measurability, expectation from C31; then C70_invariant for invariance and C92_change_of_variables for the marginal | proved | `C93_likelihood`, `C93_exact` (PmmhExact.lean) | Composition of the filter model (C30), PMMH move (C70) and prior evaluation (C92). SISR and APF (GPF is not unbiased). The proposal scale is fixed. |
| C94 | Multinomial and residual resampling are unbiased | `multinomial` and `residual` through `_wrapper`, with `torch.multinomial` as an arbitrary sampler whose draws have the right marginal laws (`Spec.DrawsMultinomial`). | The law of the result is the image of the law of the draws; the expected number of selections of the residual scheme is split into the fixed and the random positions. The filters follow from C30 and C31. | proved | `C94_multinomial`, `C94_multinomial_single`, `C94_multinomial_unbiased`, `C94_residual`, `C94_sisr_multinomial`, `C94_apf_multinomial`, `C94_apf_residual` (Multinomial.lean) | torch.multinomial is assumed to draw each index with probability proportional to the given numbers; joint law of the draws is left open. Residual resampling is used for a single filter, since it refuses batches (C11, C95). |
| C95 | SISR works with every resampling scheme | Weight tensors of one or two dimensions, `weights[..., mask]` of SISR, and the three resampling functions on either shape. | Case analysis on shapes and schemes; the negation is a single filter with two particles. | partial | `C95_schemes_partial`, `C95_residual_refused`, `C95_residual_vector`, `C95_negation` (Multinomial.lean) | False for residual resampling: indexing with the mask always gives a two-dimensional tensor, which residual refuses, so SISR raises NotImplementedError at the first resampling, even for a single filter. Proved for the other two schemes. |
| C96 | Before the first update the sequential algorithms are importance sampling | `Model/Sequential.lean` with the filter of `Model/PmmhFilter.lean` in every slot. | By induction over the run the state is untouched: parameters, models and random numbers are those of the start and the weight is the log-likelihood of the filter result, whose exponential is unbiased (C30, C31, C93). Tonelli gives the expectation. | proved | `C96_weights`, `C96_proper`, `C96_evidence`, `C96_quiet`, `C96_prior` (SequentialImportance.lean) | SISR or APF with an unbiased resampler, contexts whose parameters are not replaced after the model was built (not QuasiInferenceContext, see C66), observation densities that are positive at the particles. |
| C97 | MeanCollector records the posterior mean of the returned state once per observation | `meanCollector` (Model/Collectors.lean) as a callback of the sequential algorithms of Model/Sequential.lean; the mean of a filter is an arbitrary function of its record | induction over the algorithm shows that steps leave the recorded entries alone and leave usable weights, for which normalisation gives shares of the mass; the negation computes a step of SMC2 with two particles | partial | `C97_entry_partial`, `C97_mean_partial`, `C97_count`, `C97_weighted_twice`, `C97_negation` (Collectors.lean) | False when SMC2 increases the number of state particles: the callback is given the discarded state, whose weights are those from before the resampling while its filter results were already resampled and moved, so particles are weighted twice (C97_weighted_twice, C97_negation: 0.9 recorded, 0.5 in the returned state). In all other steps the claim holds (C97_mean_partial); C97_entry_partial states the entry in every case, C97_count that there is one entry per observation. |
| C98 | Standardizer records the posterior mean of the residuals | `standardize`, `standardizeParticles` and PyTorch's vector product `dot` (Model/Collectors.lean); residuals are arguments | direct computation with finite sums; the exchange of the sums for equal weights | partial | `C98_other_filters`, `C98_sizes`, `C98_exchanged`, `C98_uniform_partial`, `C98_negation` (Collectors.lean) | False for particle filters: the code sums over the last dimension, which runs over the parameter particles, so it raises an exception unless there are as many state as parameter particles (C98_sizes), and otherwise exchanges the roles of the two (C98_exchanged). The claim holds for other filters (C98_other_filters) and for equal weights and equal numbers (C98_uniform_partial). |
| C99 | NESSMC2 gives every keyword argument to the algorithm it is meant for | Python's argument binding (`Sig.bind`) and every constructor on the way (Model/Construct.lean) | a general theorem about binding when required parameters are positional, applied to every signature | proved | `C99_fields`, `C99_refused` (Construct.lean) | Settings that constructors only store are not checked by the code when the algorithm is built. The context is taken from the stack and not part of this property. |
| C100 | SMC2FW can be constructed | `smc2fw`, `makeSecondFw`, `fixedNess` (Model/Construct.lean) | binding of one positional argument too many fails for every dictionary | partial | `C100_never`, `C100_alone_partial`, `C100_second_partial`, `C100_negation` (Construct.lean) | False for all arguments: make_second is called with three positional arguments but takes two, so the constructor always raises TypeError (C100_never). Fixed-width NESS by itself handles its arguments as claimed (C100_alone_partial), and so does make_second when it is called without the context (C100_second_partial). |
| C101 | Logging follows the run and does not change it | Model/Logging: both loggers, do_log, __exit__, and fit of the sequential algorithms (over Seq.step) and of PMMH (over Mcmc.fitStep) as a loop with a logger. The description of the bar is left out; run_pmmh has no exceptions. | Induction over the observations against the run without a logger (Seq.run, Mcmc.fitLoop); the iteration number is that of C59. | proved | `C101_calls`, `C101_progress`, `C101_function`, `C101_closed`, `C101_zero`, `C101_pmmh`, `C101_pmmh_progress` (Logging.lean) | C101_calls, C101_progress, C101_function, C101_closed, C101_zero (log_every_iteration = 0 raises) for sequential algorithms, C101_pmmh and C101_pmmh_progress for PMMH. Callbacks must not touch the iteration counter. |
| C102 | The posterior plot shows every component of every parameter once | Model/Plot: mimic_arviz_posterior over parameters given by name, number of elements and values in both coordinates. plt.subplots and ravel are modelled by the kind and number of axes; _do_plot by what it is given; the density estimate and drawing are not modelled. | Induction over components and parameters; the panels are specified as a flat list numbered from zero, with the requested coordinates looked up directly in the argument. | partial | `C102_given`, `C102_figure_partial`, `C102_single`, `C102_empty`, `C102_negation` (Plot.lean) | True for given axes (C102_given: IndexError if there are too few) and for new figures, except for one panel in one column (C102_figure_partial). There plt.subplots(1, 1) returns an Axes without ravel and AttributeError is raised (C102_single, C102_negation). No panels: ValueError (C102_empty). |
| C103 | Quasi-random parameters follow their priors | Model/QuasiSample: inverse_sample_ with TransformedDistribution.icdf of torch (including the change of sign for decreasing bijections), and initialize_parameters over Qmc.Engine.sample. icdf of the prior is an argument; uniform_() is uniform on [0, 1). | Rotations preserve the uniform law (fundamental domains of the integers); inversion of a uniform number gives the prior (Galois property of the inverse distribution function); products of measures. Examples use the uniform prior and the quantile function of the normal distribution, which is shown to exist. | partial | `C103_law_partial`, `C103_close`, `C103_scrambled`, `C103_negation` (QuasiLaw.lean) | True up to the tails: the squeeze of qmc.py:49 cuts off mass eps / 2 on both sides of every component (C103_law_partial gives the exact distribution function, C103_close the distance 1 - (1 - eps)^m of the joint laws, C103_scrambled the same without rotation for uniform points). Hence not exactly the prior (C103_negation). Priors with several components have no icdf in torch and are not covered. |
| C104 | Quasi-random candidates follow the normal kernel | Model/QuasiSample: QuasiMultivariateNormal.sample over Qmc.Engine.sample and GaussKernel.sample, for kernels without batch shape (the only ones in use). Normal.icdf is the inverse distribution function of the standard normal law. | As C103, then the affine image of standard normal numbers (C82). | partial | `C104_law_partial`, `C104_determined`, `C104_negation` (QuasiLaw.lean) | The law of each candidate for a given kernel is right up to the tails that the squeeze cuts off, at distance at most 1 - (1 - eps)^d (C104_law_partial). It is not independent of the initial parameters: the engine rotates by one vector for its whole life, so that candidates are determined by any one row of initial parameters and the sequence (C104_determined, C104_negation). |
| C105 | Patching hands on the public methods | Model/Patch: classes with dictionaries of methods, attribute lookup along the method resolution order, setattr, the loop of patch and applied_patches. Attributes of metaclasses are not modelled. | Induction over the names of sub_cls, with an invariant describing the names that cls has gained so far. | partial | `C105_first_partial`, `C105_others`, `C105_once`, `C105_negation` (Patch.lean) | True of the first patch with a given sub_cls (C105_first_partial, C105_others). The list of applied patches remembers only sub_cls, so a second class is never patched (C105_once, C105_negation). |
| C106 | Moving a prior keeps the distribution | Model/Patch: families with arg_constraints, accepted, required and alternative arguments, and attributes computed from those given; the constructor raises as in torch. Values are abstract. | The pairs collected by the loop are a permutation of the arguments given. | partial | `C106_single_partial`, `C106_several`, `C106_other`, `C106_negation` (Patch.lean) | True of families whose constructor requires exactly the arguments of arg_constraints, such as Normal (C106_single_partial). False of families with several parametrisations, such as Bernoulli and MultivariateNormal: all of them are passed, and the constructor raises ValueError (C106_several, C106_negation). Independent and TransformedDistribution have empty arg_constraints: TypeError (C106_other). |
| C107 | The legacy mode finder treats every particle on its own and returns valid kernels | Model/ModeLegacy: the loop of find_mode_legacy on floats, with first and second derivatives of the log-density as given functions, the minimum over the last dimension, masks and the checks of Normal. | Cases on the floats of one entry; induction over the steps relating the finder to the finder given one particle. | partial | `C107_valid`, `C107_alone_partial`, `C107_newton`, `C107_coupled`, `C107_negation` (ModeLegacy.lean) | Kernels are always valid (C107_valid). Each kernel is that of the particle alone if the state is a vector, the observation a scalar or no second order information is used (C107_alone_partial). For a scalar state with a vector observation the smallest curvature is taken over the last dimension, which is then that of the parallel filters: a filter with positive curvature keeps its initial kernel as soon as another filter of its row has none (C107_coupled, C107_newton, C107_negation). |
| C108 | The legacy mode finder finds the mode of a normal target | Model/ModeLegacy, with the derivatives tied to a target log-density by HasDerivAt. | Uniqueness of derivatives gives gradient and Hessian of the target; one turn reaches the mode from any finite point. | partial | `C108_independent_partial`, `C108_correlated`, `C108_negation` (ModeLegacy.lean) | True of targets with independent components, where mean and variance are those of the target (C108_independent_partial). False of correlated components: the column sums of the Hessian stand in for its inverse, and from (1, 0) the step goes to (1/3, -1/3) instead of 0 (C108_correlated, C108_negation). |
| C109 | The likelihood estimate of SISR is consistent | The particle filters of `Model/Particle` with `Model/Bootstrap` and `multinomial2` | Second moments of the estimate are propagated backwards through prediction, resampling and correction (`EstV`): resampling, moving and weighting add at most C^2/min(threshold, N) each, because a filter that is not resampled has an effective sample size of at least the threshold; `filterAll_run` unrolls the run into elementary steps | proved | `C109_likelihood_error`, `C109_bootstrap`, `C109_consistent` (Consistency.lean) | The main theorem also covers other proposals with bounded importance weights and other resamplers that draw ancestors independently. Systematic resampling, the default of the code, does not draw independently and is not covered. |
| C110 | Filter averages of SISR are consistent | As C109; weights are normalised by `normalize2` | The error is (error of likelihood times average)/L minus average times (error of likelihood)/L; both are bounded by the second moments of C109 | proved | `C110_filter_error`, `C110_bootstrap`, `C110_consistent` (Consistency.lean) | As for C109, any resampler and proposal that draw independently, with bounded importance weights, are covered; systematic resampling is not. |
| C111 | The likelihood estimate of the APF is consistent | The APF of `Model/Particle` with `Model/Bootstrap` and `multinomial2` | Second moments of the estimate are propagated backwards (`EstQ`); the variance is kept as W plus Q times the sum of squared weights: moving particles adds to Q, and a correction (selection by pre-weights and moving, each adding C^2/N) turns Q into Q/N because weights after it are bounded | proved | `C111_likelihood_error`, `C111_bootstrap`, `C111_consistent` (ConsistencyApf.lean) | The main theorem also covers other proposals, if importance weight over pre-weight of the ancestor is bounded and pre-weights are bounded above (so fully adapted proposals too), and other resamplers that draw ancestors independently. Systematic resampling, the default of the code, does not draw independently and is not covered. |
| C112 | Filter averages of the APF are consistent | As C111; weights are normalised by `normalize2` | As C110, from the second moments of C111 | proved | `C112_filter_error`, `C112_bootstrap`, `C112_consistent` (ConsistencyApf.lean) | As for C111, other proposals and resamplers that draw independently are covered; systematic resampling is not. |
| C113 | Doubling the state particles keeps the posterior as target | `increaseStates` of `Model/Sequential`, the filters of `Model/Particle` through `ParticleModel.env` | The estimate is a measurable function of parameters and random numbers (`point_estimate`) with mean the exact likelihood (C67/C92); the quotient of the two estimates is the new weight, and the old one cancels in the integral | proved | `C113_target`, `C113_increase` (Reweighting.lean) | Hypothesis on the particle before the increase: it follows the target for n particles. That the move of the code leaves it invariant is not always true (C84, C85), so the two are not composed. |
| C114 | Reweighting carries the parameter particles from posterior to posterior | `run`, `step`, `init` of `Model/Sequential` with the filters of `Model/Particle` | In kept steps the log-weight stays the log-likelihood estimate plus a constant (`atState_run`), so the weight gains the quotient of the estimates | proved | `C114_between_updates`, `C114_start`, `C114_posterior` (Reweighting.lean) | Unlike C96 it starts anywhere (for example after a rejuvenation that keeps the target) and makes no assumption on the law of the other particles. |
| C115 | Error of averages after systematic resampling | `systematic1`, `systematic2` of `Model/Resampling` | Numbers of offspring of a prefix of the particles differ from the expected number by less than one (`offspring_prefix`); summation by parts gives the bound (`systematic_error`) | partial | `C115_variation_partial`, `C115_variation_1d_partial`, `C115_sorted_partial`, `C115_persistent_error`, `C115_negation` (SystematicError.lean) | False of the code: with alternating weights and the indicator of the heavy particles the error is exactly one quarter for every even number of particles and every uniform number, because all positions share one uniform number. Proved instead: the error is at most the variation of the function along the particles divided by their number, so it is at most range / N for sorted values. |
| C116 | Bandwidths are the optimal ones | `silverman`, `scott` of `Model/Jitter` | Weighted arithmetic-geometric mean inequality for the minimum; powers `n + 4` of both factors in closed form | proved | `C116_silverman_optimal`, `C116_consistent`, `C116_scott` (Bandwidth.lean) | The asymptotic error formula is taken from Silverman (1986) as specification; its derivation from the estimate is not formalised. Real arithmetic. |
| C117 | A copied filter result is equal and independent | `Res.copy` of `Model/Copy` on the storage model of `Model/FilterResult` | Invariant of the memo (`Copying.Good`): copies are new, distinct and equal in content; footprints (`Off`, `Same`) show that each operation writes only to storage of its own result | proved | `C117_equal`, `C117_sharing`, `C117_independent`, `C117_run` (Copy.lean) | deepcopy of the standard library is modelled with its memo; the container of further tensors of BaseResult is not (only the two histories of the filter result). Appended states reuse only tensors of the result they are appended to, as in SISR. |
| C118 | The auxiliary filter with the optimal proposal is fully adapted | `linearModelFilter`, `linearPreWeights` of `Model/KernelProposal`, the APF of `Model/Particle` | C29 with C41 (importance weight is the predictive density) and C42 | partial | `C118_random_walk_partial`, `C118_sisr_partial`, `C118_weights`, `C118_negation` (FullyAdapted.lean) | False of the code, because pre_weight takes the previous state in place of its conditional mean (C42): for x' = x/2 + u two particles get different weights. Proved for random walks with any scale; the weights of the code for all models are stated in C118_weights, and for SISR the weights do not depend on the random numbers of the step. |
| C119 | Residual resampling has no larger variance than multinomial resampling | `residualResampler`, `multinomial2` of `Model/Multinomial` | pairwise independence of the ancestors (`residual_pairs`), variance of a sum, Cauchy-Schwarz | proved | `C119_variance`, `C119_exact` (Residual.lean) | Proved. |
| C120 | The APF with residual resampling is consistent | the APF of `Model/Particle` with `residualResampler` of `Model/Multinomial` | C111 and C112 for steady resamplers; residual resampling is steady (`residualOr_steady`) | proved | `C120_likelihood_error`, `C120_filter_error`, `C120_consistent` (Residual.lean) | Proved. C111 and C112 are stated for all steady resamplers (unbiased, variance of sums at most N H^2), of which multinomial and residual resampling are cases. |
| C121 | Jittering moves parameters little if the effective sample size is large | `bwFac`, `Kernel.fit`, `Kernel.jitter` of `Model/Jitter` | bounds on the robust variance (C75), on the shrinkage and on the effective sample size (Cauchy-Schwarz) | proved | `C121_bandwidth`, `C121_moved`, `C121_limit` (JitterSize.lean) | Proved. |
| C122 | Pickled and deep-copied contexts keep their parameters bound | `Model/Pickle`: objects with references (`Graph`), `named_parameter` with `set_name`/`set_context`, the walk of `pickle` with its memo through `__reduce_ex__` and `_rebuild_parameter`, and `copy.deepcopy` | invariant of the walk (every object in the memo is a finished copy bound to the new context), preserved item by item; all reachable states are well formed | partial | `C122_context_partial`, `C122_parameter`, `C122_shared`, `C122_deepcopy_parameter`, `C122_deepcopy_context`, `C122_negation` (Pickle.lean) | Proved for pickle. False for copy.deepcopy: PriorBoundParameter inherits __deepcopy__ of torch.nn.Parameter, which copies only the data and requires_grad, so every parameter of a deep copy has no context and raises AttributeError when asked for its prior. |
| C123 | PMMH converges to the exact posterior | `Model/PmmhRun`: the loop of `fit` on independent random numbers (standard normals, generator of the filter, uniforms), on top of `Model/Pmmh` and `Model/PmmhFilter`; `Spec/Posterior` | a slot of the batch is a chain on parameters and likelihood estimate; its kernel is reversible with an everywhere positive flow (`Lemmas/Converge`, `Lemmas/PmmhChain`), and such chains converge by the spectral argument in L2 of `Lemmas/Ergodic`; the marginal of the target is the posterior (C92, C93) | proved | `C123_converges` (PmmhConverges.lean) | Proved. The initial model is built before the parameters are overwritten by the prior mean (pmmh.py:60-68), so the first likelihood estimate is one of other parameters; the theorem covers this, since it holds for any finite estimate at the start. |
| C124 | Averages of PMMH samples converge to posterior expectations | as C123, with the record of `PMMHResult` (`Fit.recorded`) | the record is the path of the chain (C71); correlations between iterations vanish in the limit (spectral argument), so the variance of the average does (`Lemmas/Averages`) | proved | `C124_averages` (PmmhConverges.lean) | Proved. |
| C125 | Weighted parameter particles converge to the posterior while the filters keep their size | `Model/Sequential` with the filter of `Model/PmmhFilter` in each slot; `Spec/Posterior` | while nothing is updated the weight of a slot is the likelihood estimate of its own filter (C96); strong law of large numbers with pairwise independence, and unbiasedness of the estimate (C30) integrates the random numbers of the filter out (`Lemmas/ImportanceLaw`) | proved | `C125_evidence`, `C125_posterior` (ParameterConsistency.lean) | Proved. The statement is conditional on runs without update, whose occurrence is settled by C126. |
| C126 | The first move of SMC2 and NESS happens at a predictable observation | `Model/Sequential`, `Model/Threshold`; `Spec/Efficiency` | strong law for the weights and their squares, truncating when the mean square is infinite (`Lemmas/ImportanceLaw.averages_top`); invariant that the recorded values are those of the prefixes (`Lemmas/FirstUpdate`) | proved | `C126_ess`, `C126_smc2`, `C126_ness` (ParameterConsistency.lean) | Proved. The case of efficiency equal to the threshold is left open on purpose: the limit does not decide it. An exception while jittering counts as acting in the statement for NESS. |
| C127 | The gradient proposal differentiates the complete-data log-likelihood | `Model/GradientScore`: slices and broadcasting along the time dimension, after backward sampling (`Model/Smoothing`) of the recorded window; `Spec/CompleteData` | position by position over the lists, with the times of the recorded states from C24; counterexample by the default settings | partial | `C127_complete_partial`, `C127_short_window`, `C127_intermediary`, `C127_skipping`, `C127_two_states`, `C127_negation` (GradientScore.lean) | False in general, proved if all states are recorded and every step is observed. With the default window (record_states=False) and at least two observations it raises; with a window of two states it silently evaluates all observations at the last state; with observe_every_step > 1 it raises if the intermediary states are recorded, and otherwise evaluates the one-step transition density between states several steps apart. |
| C128 | The gradient proposal steps along the gradient in the coordinates it moves in | `GradientScore.location`, `stepSize` on the priors of `Model/Prior`; gradients in `Spec/CompleteData` | chain rule and uniqueness of derivatives; first-order expansion along the step for the direction | partial | `C128_missing_factor`, `C128_real_partial`, `C128_uphill`, `C128_downhill`, `C128_langevin_scale`, `C128_negation` (GradientLocation.lean) | False: the gradient is taken with respect to the constrained parameters and added to the unconstrained ones, so the derivative of the bijection is missing. Proved for unconstrained parameters; proved that the step is still uphill for small step sizes unless a parameter is bounded above only, and downhill if all are. The standard deviation is the one of the Langevin algorithm. |
| C129 | Averages over smoothed paths are consistent for the smoothing distribution | `smoothFl`, `apfCorrect`, `sisrPredict`, `filterAll` as for C37 and C110/C112; specification `smoothingAvg` in `Spec/PathAverage` integrates over paths with Bayes' rule. | The filter on paths (`Lemmas/Lifted`): running the modelled filter on particles that carry their history commutes with forgetting the history, its laws are again independent transitions, and its filter averages are smoothing averages; the bounds of C110/C112 transfer. The carried paths are the lineages of C37, so they are what `smoothFl` returns. | partial | `C129_apf_partial`, `C129_sisr_partial`, `C129_bootstrap_partial`, `C129_consistent_partial`, `C129_no_weights`, `C129_negation` (PathSmoothing.lean) | False as stated: `_do_sample_fl` follows the ancestors but never uses the weights of the last state, and returns one path per particle without weights (`C129_no_weights`, `C129_negation`: two observation densities, same random numbers, same paths, different smoothing laws). Proved: weighted with the normalised weights of the last state, the averages over exactly the returned paths have mean squared error O(1/N) against the smoothing distribution (APF; SISR for the ancestral paths, which are the returned ones if every step resamples), hence converge. |
| C130 | Averages over backward-simulated paths are consistent for the smoothing distribution | `smoothFfbs`, `ffbsLoop`, `filterAll`, `sisrPredict`, `sisrCorrect` as for C08, C30, C37; contracts of the samplers in `Spec/Mutual` (all particles independent), transition density with respect to any sigma-finite measure. | The run as a random system of ancestors and values (`Lemmas/TrajectoryRun`, `TrajectoryLaw`); given the values, the ancestors have the law of the backward weights, so the simulated paths average conditionally to the ancestral paths (`TrajectoryBack`, `TrajectoryFfbs`), which C129 compares with the smoothing distribution; two simulated paths are conditionally independent, which leaves a variance of at most 1/N (`ffbs_core`). | proved | `C130_error`, `C130_consistent` (BackwardConsistency.lean) | The code resamples in every step when `ess_threshold` times the number of particles exceeds the number of particles, which the constructor accepts (`ess_threshold > 1`). With a lower threshold, ancestors of steps that do not resample are not random, and the argument used here (backward weights are the conditional law of the ancestor) does not apply; that case is not covered. Draws of different particles are independent. |
| C131 | The gradient of the gradient proposal is a consistent estimate of the score | `target`, `modelLikelihood` as for C127; `smoothFfbs`, `batchFilter` as for C130. `Spec/Score` says what a model with a parameter is; the likelihood is `lik` of `Spec/Likelihood` integrated over the initial distribution. | Fisher's identity (`Lemmas/Fisher`): with respect to the law of the path at the parameters of the run, the likelihood at other parameters is the integral of the exponential of the difference of joint log-densities, which is differentiated under the integral; its logarithmic derivative is the smoothing average of the derivative of the joint log-density. This function of the path is bounded, so C130 applies. | proved | `C131_error`, `C131_consistent` (ScoreConsistency.lean) | One real parameter per parallel filter, the others held fixed: the theorem gives each component of the gradient. `lp` is whatever `eval_priors(constrained=False)` returns as a function of that parameter. What happens when states are missing or steps are skipped is C127; in which coordinates the step is then taken is C128; that gradients accumulate over several builds is C73. As for C130, resampling in every step is needed. |
| C132 | ParameterPosterior records the posterior mean of the parameters | `Model/ParameterPosterior` on top of the sequential algorithms of `Model/Sequential`. | As for C97: the entry is computed from the state after `_step`; where no new state is returned this is the state returned. | partial | `C132_entry_partial`, `C132_mean_partial`, `C132_count`, `C132_weighted_twice`, `C132_negation` (ParameterPosterior.lean) | Fails as C97 does: `step` hands the state it was given to the callbacks, not the one it returns. When SMC2 increases the number of state particles, the weights of the old state meet parameters that have already been resampled with them, so that particles are weighted twice (`C132_weighted_twice`; 0.9 instead of 0.5 in the case). `concat_parameters` is a method of the model that is not defined in /repo (nor is it the `stack_parameters` of the context); the model takes what it returns as an argument. |
| C133 | The linearised proposal differentiates each particle's log-density with the parameters of its filter | `gradient`: `initialize` and the call in `find_mode`, with nested maps over the batch shape, in the order in which the loop of lines 68-77 wraps them. Scalar states, observations and parameters. | Unfolding of the nested maps; every call raises, or every call returns the derivative. | partial | `C133_plain_partial`, `C133_raises`, `C133_unbatched_raises`, `C133_negation` (Functorch.lean) | Fails for parameters of a context: `vmap` slices the argument `parameters`, but `_model_likelihood` does not use it and the densities read the parameters of the captured model, which hold the values of all filters. The log-density of one particle is then a vector, and `functorch.grad` raises. Without a batch shape `_infer_shapes` still maps over dimension 0, which does not exist. What is assumed of functorch is in the comments of the model: `grad` refuses anything but scalars, `vmap` refuses to map over a dimension that does not exist, and captured tensors are not sliced. The steps of the search are C43 and C44; without functorch see C107. |
| C134 | do_sample_pyro registers an estimate of the log-likelihood | `Model/Pyro` on top of the filters, backward simulation and densities of `Model/GradientScore`. | The recorded states are one step apart (C81), the slice picks the observed ones (C40), the paths run through the particles (C38); with every step observed the factor is the target of the gradient proposal without prior, so the gradient converges by C131. The negation computes the factor for fair coins. | partial | `C134_complete`, `C134_refused`, `C134_gradient_partial`, `C134_negation` (PyroFactor.lean) | The factor is what the docstring describes, path by path (`C134_complete`), and its gradient in a parameter is a consistent estimate of the gradient of the log-likelihood (`C134_gradient_partial`). Its value is not an estimate of the log-likelihood, although `_do_pyro_ffbs` says so: it is the mean of the complete-data log-density. With fair coins as states and an observation that tells nothing it is -2 log 2 for every number of particles, while the log-likelihood is 0 (`C134_negation`). Optimisers that only use gradients are not affected; anything that compares values of the factor at different parameters is. The docstring of `do_sample_pyro` calls the method experimental and without theoretical justification. |
| C135 | Pre-weights evaluate the observation at a guess of the next state | `Model/PreWeight`: the proposal object with its two attributes, `get_pre_weight_func`, `set_model` of every class, `pre_weight`. | Induction over the models set before: the function held is none or the one for the class. Negation with a bootstrap proposal used for two filters. | partial | `C135_pre_weights_partial`, `C135_linearized`, `C135_reused`, `C135_negation` (PreWeight.lean) | False when a proposal object without own function is used for models of different classes: `set_model` stores the default it finds where the user's function would be, so the default found for the first model is kept as if the user had passed it. After a process that is not affine, the pre-weights for affine ones raise as well; after an affine one, those for others raise an AttributeError about `mean_scale` instead of the message (`C135_reused`). Proved if a function was passed or the classes agree, and for the linearised proposals, which refuse other models. Copies of proposals (C32) start afresh. |
| C136 | Applying a function to a context | `Model/Context.applyFun` with `copyInto`, the expansion done by `copy_`. | Induction over the parameters; the expansion is characterised entry by entry (`Spec.Expands`). | proved | `C136_apply`, `C136_number`, `C136_different`, `C136_unfit`, `C136_empty` (ContextApply.lean) | A mean over all entries of a vector parameter is written to all its entries (`C136_number`): the parameters of the new context then need not lie in the support of the prior. This is what `copy_` does, and is not an error. Results with fewer dimensions than the events, other than numbers, are not covered. |
| C137 | Errors of the filter do not add up | The SISR loop of `Model/Particle` and `Model/Filter.filterAll`, randomness as in C109. | The error is the sum over the steps of what a step changes in the aim of the particles (`aimed`); the change is small because averages given later observations depend on the present state only up to the factor (1-ε²)^k (`likAvg_split`). Root mean squares then add up to a geometric series (`initial_mse`). | proved | `C137_uniform_error`, `C137_bootstrap`, `C137_uniform_consistent` (Stability.lean) | C110 has a bound for all models that grows with the number of observations; this one needs mixing. Only SISR with `increment = 1` and independent resamplers (multinomial) is covered, as in C110; the auxiliary filter is not. |
| C138 | Predicted paths estimate the predictive distribution | `Model/PredictPath`: `predictPath` propagates the particles of the state `num_steps` times (contract of stochproc's `sample_states`). | `sampleStates_one`, `sampleStates_two`: laws of one and two paths by induction over the steps. `initial_joint` follows the likelihood, the last state and the generator of a run together; likelihood times weighted average has the right mean and a variance that grows by C²/min(threshold, N) only, since likelihood² times Σ weights² is bounded along every run. | proved | `C138_times`, `C138_law`, `C138_error_given_state`, `C138_prediction_error`, `C138_bootstrap`, `C138_consistent` (PredictPath.lean) | The method does not use the weights of the state; the weighting with them is left to the caller (as in examples/stochastic-volatility.ipynb), and a case shows that the plain mean over the paths is something else. Only hidden states are modelled, not the observations that `sample_states` draws along. The bound for whole runs is for SISR; the law given the state holds for every state. |
| C139 | The linear proposal serves every filter of a batch | `Model/Tensor`: tensors as shapes with values, with PyTorch's rules for broadcasting, `matmul`, `unsqueeze`, `squeeze`, `transpose`, `inverse` and batches of distributions; `findOptimalDensity` and `linearKernel` are the lines of the code on them. | `Lemmas/Tensor`: what each operation reads at a batch index; `findOptimalDensity_reads` follows the code and ends in the kernel for one particle, to which C41 applies. | partial | `C139_single_filter`, `C139_kernel_partial`, `C139_offset_per_filter_raises`, `C139_offset_per_filter_mixes`, `C139_mixed_is_wrong`, `C139_negation` (LinearBatch.lean) | False for vector observations whose offset differs between the filters: `find_optimal_density` multiplies the precision matrix with `y - b` (`o_inv_cov.matmul(y)`, utils.py:260) without adding a dimension, so PyTorch reads the observations less offsets of all filters as one matrix. This raises unless there are as many filters as components; then, with a shared scale, filter `f` weighs all components by the precision of component `f`. Proved for scalar observations and for shared offsets. |
| C140 | The linear pre-weight has a number for every particle | `Model/Tensor`: `linearPreWeight` is the code on tensors with shapes; `Dist.logProb` with the checks of PyTorch. | `preWeightCov_reads` for the covariance in all cases; `linearPreWeight_scalar`, `linearPreWeight_vector` for the two good cases, error cases by the shapes. | partial | `C140_pre_weight_partial`, `C140_single_filter`, `C140_scalar_state_raises`, `C140_scalar_state_raises_single`, `C140_vector_state_raises`, `C140_vector_state_raises_single`, `C140_one_component`, `C140_negation` (PreWeightBatch.lean) | False if one of state and observation is a scalar and the other a vector. Scalar state, vector observation: `x.value.unsqueeze(-1)` (linear.py:83) turns particles or filters into rows of a matrix and the product raises. Vector state, scalar observation: `a.squeeze(-1) * x.value` (linear.py:80) keeps the components and `Normal` raises unless the number of components equals that of filters (particles) by accident; one component gives an N x N matrix. Proved for the other cases, for batches and for a single filter. That the state stands in for its mean is C42. |
| C141 | The Gaussian proposal draws states with the moments of the particles | `Model/TensorGaussian`: `filterMoments`, `predictiveDensityT`, `gaussianValues` are the code on tensors with shapes. | `filterMoments_var`, `filterMoments_cov`, `predictive_scalar`, `predictive_vector`: what the moments read at a batch index; then the draw; error cases by the shapes. | partial | `C141_draws_partial`, `C141_single_filter`, `C141_one_component_single`, `C141_one_component_batch`, `C141_negation` (TensorGaussian.lean) | False for vector states with one component: `mean.squeeze_(-1)` (particle/utils.py:63) drops their dimension. With a single filter `MultivariateNormal` is then given a mean without dimensions and raises; with `B > 1` filters the means of the filters are taken for the components of a state (event shape `[B]`) and the draw raises. Proved for all other states, for batches and for a single filter. That `MultivariateNormal` and `Normal` refuse a covariance that is not positive is in C86, not here. |
| C142 | The linear proposal draws and weighs every particle of every filter | `Model/TensorWeights`: `linearSampleAndWeight`, `weightWithKernel`, with `Dist.sample` and `Dist.logProb` on tensors. | `DistReads`: mean and covariance of a batch of normal distributions; `findOptimalDensity_dist`, `DistReads.sample`, `DistReads.logProb`, `weightWithKernel_reads`, then C41 for each particle. | partial | `C142_weights_partial`, `C142_single_filter`, `C142_offset_per_filter_raises`, `C142_negation` (TensorWeights.lean) | False, like C139, for vector observations whose offset differs between the filters: `find_optimal_density` raises, unless there are as many filters as components. Proved for scalar observations and for shared offsets, and for a single filter. The densities of the model (stochproc) are functions on tensors that are assumed to give one number per particle. |
| C143 | The proposal GaussianLinear draws and weighs every particle of every filter | `Model/TensorWeights`: `gaussianLinearSampleAndWeight`, with `filterMoments`, `predictiveDensityT`, `findOptimalDensity` and `weightWithKernel` on tensors. | `moments_reads` and `gaussianLinear_reads` read all parameters at the index of a particle; `kernel_is_conditional` is C41 with a variance instead of a scale. | partial | `C143_weights_partial`, `C143_single_filter`, `C143_offset_per_filter_raises`, `C143_one_component_single`, `C143_negation` (TensorGaussianLinear.lean) | False for vector observations whose offset differs between the filters (as C139: raises, unless there are as many filters as components) and for vector states of one component (as C141: with a single filter the call never returns). Proved otherwise, for propagated clouds with a positive definite covariance. Also proved for a single filter (`C143_single_filter`). |
| C144 | Smoothed paths of every filter of a batch | `Model/TensorSmoothing`: `ffbsTensor`, `flTensor`, `batchedGather` with `gather`, `unsqueeze`, `moveaxis`, `expand`, `stack` on shapes and indices. | Each operation reads its argument at the index of path and filter; induction over the recorded states. | proved | `C144_backward_sampling`, `C144_fixed_lag`, `C144_normal_density`, `C144_mvn_density` (TensorSmoothing.lean) | The log-density of the latent process (stochproc) is a function on tensors that is assumed to broadcast; C144_normal_density and C144_mvn_density show that Normal (scalar states) and MultivariateNormal (vectors) do. Log-weights are numbers here, not infinite. Which states the indices point to (C37) and the law of the draws (C80) are other properties. |
| C145 | The factor for pyro pairs every observation with the states at its own time | Model/TensorPyro (spread, rest0, first0, mean0, pyroFactor), on the tensors of Model/Tensor and Model/TensorSmoothing | sums over times and means over paths of tensors whose values are functions of time, path and batch index; broadcasting computed for every shape | partial | `C145_pairs_partial`, `C145_normal_density`, `C145_extra_dimension`, `C145_negation` (TensorPyro.lean) | False of the code for scalar observations stored as vectors with one component: the view at base.py:201-202 keeps that component as a dimension of its own, so that every observation is compared with the states at all times and the factor of a single filter has a number for every path (C145_extra_dimension gives the values; C145_negation is a concrete case). Proved if observations are stored with the shape the observation model has (C145_pairs_partial). |
| C146 | The gradient proposal differentiates one number for every chain, however observations are stored | Model/TensorGradient: modelLikelihood with reshape on the order of entries in memory, total for backward with ones | reshape_reads for all shapes; sums and means as in C145; the derivative of a sum over chains of which one depends on the parameter | proved | `C146_target`, `C146_backward` (TensorGradient.lean) | Every step of the latent process is observed here (as many observations as transitions); otherwise see C127. Unlike in C145, the observations are reshaped to the event shape of the observation model, so their storage does not matter. Densities and prior (stochproc, pyro) are functions on tensors that are assumed to give one number per time, path and chain; C145_normal_density shows it for Normal. |
| C147 | The nested proposal serves every particle of every filter | Model/TensorNested: nestedSampleAndWeight with softmax, moveaxis, Categorical, take_along_dim and squeeze on tensors | takeAlong_ok: what take_along_dim reads after the added dimensions; then each line of the code at the index of a particle | proved | `C147_nested`, `C147_normal_density` (TensorNested.lean) | Log-densities are finite numbers here; infinite and NaN ones, and the law of the draws, are in C45 and C82. The observation density is a function on tensors that gives one number per sample, particle and filter; C147_normal_density shows it for Normal and scalar observations, stored as numbers or as vectors with one component. |
| C148 | SISR.predict resamples every degenerate filter with its own weights and leaves the others alone | Model/TensorSisr: sisrPredict, normalizeT, maskedScatter by the order of entries in memory, indexing with masks | cnt_mod, cnt_div_add: how many masked entries lie before a place in memory; scatter_entry, pick_batch, fill_batch at the index of a particle; the single filter with a mask without dimensions | proved | `C148_batch`, `C148_single_filter` (TensorSisr.lean) | Log-weights are finite numbers here; infinite and NaN ones are in C01-C05 and C27. That systematic and multinomial resampling work column by column is C12; residual resampling refuses the two dimensions that indexing with the mask produces (C95). |
| C149 | A move of SISR and of the APF treats every filter of a batch as if it were alone | Model/TensorMove: logLikelihoodT, sisrCorrect, apfPredict, apfCorrect on tensors | logLikelihoodT_ok: the subtracted maximum cancels, for every filter; gatherWeight_ok; C148_batch for the prediction; then each line of the code at the index of a particle | proved | `C149_sisr_correct`, `C149_sisr_batch`, `C149_apf` (TensorMove.lean) | Log-weights are finite numbers here; infinite and NaN ones are in C01-C05 and C27. That proposals work filter by filter is shown in C140-C143 and C147; for the draws of resampling schemes see C12. The full SISR move is stated for a batch; for a single filter combine C149_sisr_correct with C148_single_filter. |
| C150 | Exchanging accepted filters leaves the ancestors of rejected filters alone | Model/SharedIndex: index tensors as addresses of columns in storage; initialize, SISR, APF, GPF, resample, exchange | invariant over the history: columns of their own once a tensor was made, one column before; order of the writes of the exchange | partial | `C150_moves`, `C150_exchange_partial`, `C150_without_resampling`, `C150_indices_kept`, `C150_both_kept`, `C150_rejected_changed`, `C150_negation` (SharedIndex.lean) | False: initialize expands one column to all filters, and SISR moves without resampling hand it on, so that the in-place write of exchange reaches rejected filters too: all filters get the ancestors of the last accepted one (fixed-lag smoothing then follows wrong ancestors). Proved for every history with at least one move that makes a new tensor; harmless between filters whose indices are still the initial ones, as always for the GPF. Two states that share one tensor are C20. |
| C151 | Systematic resampling of tensors gives every filter its own offspring | Model/TensorResampling: systematicRows and systematicT on tensors with moveaxis, cumsum, searchsorted | row_first: what searchsorted finds in a row; systematicRows_ok at the index of a particle; uniqueness of the first particle; C148 and C149 for the filters, C07 for the counts | proved | `C151_columns`, `C151_filters`, `C151_quantile`, `C151_offspring`, `C151_sisr`, `C151_apf` (TensorResampling.lean) | Weights are finite numbers here, for infinite and NaN ones see C06-C10. The n-th filter below the threshold uses the n-th uniform number. The results C06-C09 (counts, zero weights, unbiasedness) are tied to this model by C151_offspring. |
| C152 | In a run of SISR or the APF every filter of a batch goes its own way | Model/TensorRun: createState, StepT.move, runT on tensors | each step by C148 and C149 (or propagation), as a relation between the states of one filter; induction over the steps; the relations are functions once the random numbers are given, hence equality with the run alone | proved | `C152_sisr_run`, `C152_sisr_single`, `C152_sisr_alone`, `C152_apf_run`, `C152_apf_alone` (TensorRun.lean) | Log-weights are finite numbers here, and the process is observed at every step. Which of the random numbers a SISR filter gets for resampling depends on how many filters before it are resampled at that step (C151): C152_sisr_alone compares with the filter run alone with those numbers. |
| C153 | The Gaussian particle filter treats every filter of a batch as if it were alone | Model/TensorGpf: gaussianSampleAndWeight, gpfPredict, gpfCorrect on tensors | C141 at every index of the batch; logLikelihoodT_ok; induction over the steps as in C152; the move is a function of the state, hence equality with the run alone | proved | `C153_proposal`, `C153_run`, `C153_alone`, `C153_gaussian_move` (TensorGpf.lean) | For vectors of one component the proposal fails, see C141. Covariances have to be positive definite (else PyTorch refuses them), which is not part of the tensor model, see C86. Log-weights are finite numbers. |
| C154 | Moments of a state are those of every filter | Model/TensorMoments: storedMomentsT, getCovarianceT on tensors with broadcasting | filterMoments_var at every index of the batch; failure of broadcastShape; cube_ok: the lines of get_covariance when the three sizes are equal | partial | `C154_moments`, `C154_scalar_partial`, `C154_refused`, `C154_cube`, `C154_cube_equal_weights`, `C154_wrong`, `C154_negation` (TensorMoments.lean) | Mean and variance: true, for a batch or a single filter. get_covariance: true for scalar states; false for vector states: (w * x).sum(dim=0) lines up the filters of the weights with the components of the values. PyTorch refuses it unless sizes are equal or one; with as many particles as filters as components it uses the weights of other filters (right only for equal weights). Witness of wrong numbers: all particles at one place, covariance 1/4 instead of 0. For a single filter see C35. |
| C155 | Particle filters on tensors and as functions of particle and filter are the same programs | Model/TensorSisr, TensorMove, TensorGpf, TensorRun, TensorResampling on one side, Model/Particle, Bootstrap, Resampling on the other | Spec/TwoModels states when tensors hold a state and when parts of a filter (resampler, proposal, pre-weight, transition) agree; Props/TwoModels proves the moves by the theorems on tensors (C147-C154), the run by induction over the observations, unbiasedness from C30/C31; systematic resampling by the smallest particle whose cumulated weight reaches the level | proved | `C155_sisr_predict`, `C155_sisr_correct`, `C155_apf_predict`, `C155_apf_correct`, `C155_gpf_predict`, `C155_gpf_correct`, `C155_propagate`, `C155_initialize`, `C155_predict`, `C155_move`, `C155_run`, `C155_gaps`, `C155_run_every`, `C155_sisr_unbiased`, `C155_apf_unbiased`, `C155_systematic`, `C155_bootstrap`, `C155_pre_weight` (TwoModels.lean) | The two models of the particle filters (tensors with reshaping, broadcasting and masked indexing; functions of particle and filter) are proved to agree step by step and over series observed every k steps, with missing observations, for one batch dimension of filters and scalar or vector states with finite log-weights. Unbiasedness of SISR and APF is carried over to tensors. The bootstrap proposal and the default pre-weights on tensors follow from the transition and the observation density (C155_bootstrap, C155_pre_weight). |
| C156 | SISR and the APF on tensors are consistent | Model/TensorResampling: multinomialRows, multinomialT; Model/TensorRun: gapsT, runEveryT; the filters on tensors as in C155 | C155_run_every turns the runs of C109-C112 into runs on tensors; the weighted average of a state that tensors hold is the one over the tensors; multinomial resampling row by row | proved | `C156_average`, `C156_sisr`, `C156_apf`, `C156_multinomial` (TensorConsistency.lean) | The bounds are those of C109-C112, carried over by C155. The resampler of SISR has to draw independently (multinomial), that of the APF steadily (multinomial, residual). Refusals of torch.multinomial are not part of the tensor model; normalised weights are positive. |
| C157 | Smoothing on tensors returns the paths that the smoothing specification describes, filter by filter | Model/TensorSmoothing (tensors) on one side, Model/Smoothing (functions of path, filter and component) on the other | Spec/SmoothingModels states when tensors hold a recorded state and paths; C144 describes the paths on tensors, which are shown to be those of flLoop and ffbsLoop by induction over the history | proved | `C157_fixed_lag`, `C157_backward_sampling`, `C157_recorded` (SmoothingModels.lean) | Finite log-weights and log-densities, one batch dimension of filters, states with at most one dimension. What a draw of Categorical does to the generator may not depend on the logits. The results on Model/Smoothing (C37, C38, C129) thereby hold for the tensors. C157_recorded: the states of the filters on tensors (C155) are such recorded states. |
| C158 | Standardised residuals are the noise of the observations | Model/Residuals: standardizeObs; transforms as pairs of functions | Spec/Residuals composes the transforms; induction over the list of transforms; the law by measurability of both compositions | proved | `C158_recovers`, `C158_unique`, `C158_scores`, `C158_law`, `C158_refused` (Residuals.lean) | The transforms are functions with inverses (PyTorch); the density is taken at a given state. Standardizer takes the states of the filter after the observation has been seen, which depend on it; the law of what it then records (C98) is not covered. |
<!-- end of table -->

## Findings about the code

Beside the properties that are false as stated (see the remarks above), reading and proving turned up:

* `normalize` cleans its argument in place. Whoever reads `normalized_weights()` changes the stored weights: NaN and
  `+inf` become `-inf`, and `-inf` becomes the lowest finite number at the next read. Hence C03, C60, C68 and C79.
* `get_covariance` of a state with vector values and a batch of filters lines up filters of the weights with components of
  the values: it raises for most sizes, and for equal sizes it mixes the weights of different filters (C154).
* The fallback to uniform weights in `normalize` is dead code: the sum of a softmax is never 0 (C01).
* `initialize` expands one column of indices to all filters; until a move makes a new tensor, an exchange with accepted filters
  also overwrites the indices of rejected ones (C150).
* A SISR step without resampling keeps the index tensor of the previous step (`sisr.py:26`), so two recorded states
  can share it, and smoothing applies the old selection again (C20, C37).
* The initial state's log-likelihood tensor is the accumulator of the result (`result.py:34`), so it grows (C17, C18).
* `FilterResult.load_state_dict` replaces histories and log-likelihood before it refuses (`result.py:147-152`).
* The checkpoint of a sequential algorithm holds the live weights: loaded after further observations it mixes the old
  histories with the newest weights. Loading empties its histories (C90). A PMMH result does not save its chain (C91).
* `ParticleFilter.copy` passes the absolute threshold as a relative one; the copy always resamples for more than one
  particle. The proposal filter of PMMH and SMC2 is such a copy (C32).
* The Gaussian proposals never advance the clock, so `observe_every_step` is not obeyed and time-dependent models
  see time 0 (C34).
* The Gaussian particle filter raises `ValueError` in every move if there are no more particles than components (C88). Its
  likelihood is that of a normal approximation, for which C87 says what it estimates.
* `nan_strategy` is stored and never read (C26).
* Smoothing with intermediary states not recorded uses the one-step density for several steps (C81).
* A context that is entered in a thread that never created one raises `AttributeError`; copying an empty context
  raises `IndexError`.
* The ESS history and the observations live in `tensor_tuples`, which an increase of the particles shares between the
  old and the new state; collectors write into the same container, so a collector named `ess` or `parsed_data` would
  corrupt them. The ESS of the new state's weights is not recorded, and its constructor cleans the weights in place.
* After a particle increase the callbacks get the discarded state object (C67), so `MeanCollector` reports the old
  filter results.
* After the switch of a combined algorithm the callbacks of the inner algorithms are ignored, and a low ESS left over
  from SMC2 triggers an update of NESS at once.
* After `TooManyIncreases` the parameters have been resampled and exchanged, but the model of the filter has not been
  rebuilt.
* `PMMH` with `SymmetricMH` raises `AttributeError` (`FilterAlgorithmState` has no `normalized_weights`).
* `GradientBasedProposal` never clears `.grad` (C73).
* The rejuvenation of SMC2 with `SymmetricMH` draws candidates from the fit of the weighted parameters, but its reverse
  density is the fit of the candidates, so the acceptance is not that of Metropolis-Hastings (C84). With the random walk
  the reverse kernel is that of the candidates and the forward kernel is built before the parameters are resampled (C85).

## Testing the theorems against wrong programs

`seeded/LOG.jsonl` has one line per attempt: the model was edited like a realistic bug in a scratch copy, everything
was rebuilt, and the theorems that failed were noted. Where a theorem survived although its claim had become false,
it was tightened or a new one was added (field `tightened`).
