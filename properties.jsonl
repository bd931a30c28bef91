{"id": "C01", "title": "Normalised weights are a probability vector", "statement": "Normalising any non-empty vector of log-weights returns non-negative numbers that sum to one and are proportional to the exponentials of the log-weights, NaN and +inf log-weights counting as impossible particles.", "quantifier": "every number of particles >= 1 and every vector of log-weights, each finite, -inf, +inf or NaN", "why_tests_cant": "The mixtures of NaN, infinities and finite values over all lengths are infinite; tests only draw Gaussian log-weights.", "anchors": ["pyfilter/utils.py:normalize"]}
{"id": "C02", "title": "Normalisation ignores a common offset and respects order", "statement": "Adding the same finite number to every log-weight does not change the normalised weights, and a particle with a larger log-weight never gets a smaller normalised weight.", "quantifier": "every vector of finite, NaN or +inf log-weights and every offset", "why_tests_cant": "Universal over real vectors and offsets.", "anchors": ["pyfilter/utils.py:normalize"]}
{"id": "C03", "title": "Normalising the same weights twice gives the same answer", "statement": "Reading the normalised weights of a state a second time returns the values of the first read (normalising cleans its argument in place, so this is not automatic).", "quantifier": "every weight vector, including ones with NaN and infinities", "why_tests_cant": "The in-place cleaning changes only special values, which no test mixes.", "anchors": ["pyfilter/utils.py:normalize", "pyfilter/filters/particle/state.py:ParticleFilterCorrection.normalized_weights"]}
{"id": "C04", "title": "ESS lies between 1 and N", "statement": "The effective sample size of normalised weights is at least 1 and at most the number of particles; it equals N exactly for uniform weights and 1 exactly when one particle has all the weight.", "quantifier": "every N >= 1 and every weight vector", "why_tests_cant": "An inequality over all real vectors.", "anchors": ["pyfilter/utils.py:get_ess"]}
{"id": "C05", "title": "Parallel filters do not influence each other's weights", "statement": "In a batch of parallel filters the normalised weights and the ESS of one filter depend only on that filter's own log-weights.", "quantifier": "all batch sizes, all particle counts, all contents of the other columns", "why_tests_cant": "Universal over the contents of the other columns.", "anchors": ["pyfilter/utils.py:normalize", "pyfilter/utils.py:get_ess"]}
{"id": "C06", "title": "Systematic resampling returns valid, ordered indices", "statement": "Systematic resampling of N non-negative weights returns N indices, each a valid particle number, in non-decreasing order, for every draw of the uniform, also when rounding has left the weights not summing exactly to one.", "quantifier": "all N >= 1, all non-negative weight vectors, all uniforms in [0,1)", "why_tests_cant": "An out-of-range index needs a rare weight/uniform combination.", "anchors": ["pyfilter/resampling.py:systematic"]}
{"id": "C07", "title": "Systematic offspring counts are floor or ceiling of N*w", "statement": "With normalised weights, systematic resampling selects particle i either floor(N*w_i) or ceil(N*w_i) times.", "quantifier": "all N, all normalised weights, all uniforms in (0,1)", "why_tests_cant": "Real-valued inequality over all weights and uniforms; tests compare with one other implementation on one sample.", "anchors": ["pyfilter/resampling.py:systematic"]}
{"id": "C08", "title": "Particles with zero weight are never selected", "statement": "Systematic resampling never selects a particle whose normalised weight is zero.", "quantifier": "all N, all normalised weights, all uniforms in [0,1)", "why_tests_cant": "Fails only on a null set of uniforms that random tests do not hit.", "anchors": ["pyfilter/resampling.py:systematic"]}
{"id": "C09", "title": "Systematic resampling is unbiased", "statement": "The expected number of times systematic resampling selects particle i, over its uniform draw, is exactly N*w_i.", "quantifier": "all N, all normalised weights, the continuous uniform distribution of the draw", "why_tests_cant": "An expectation over a continuum.", "anchors": ["pyfilter/resampling.py:systematic"]}
{"id": "C10", "title": "A caller-supplied uniform determines the resampling", "statement": "When the caller passes its own uniform u, the indices returned by systematic resampling are the ones determined by the weights and u alone.", "quantifier": "all weights of one or two dimensions, all u, all internal random draws", "why_tests_cant": "Must hold for every internal random draw.", "anchors": ["pyfilter/resampling.py:_wrapper", "pyfilter/resampling.py:systematic"]}
{"id": "C11", "title": "Residual resampling keeps the deterministic part", "statement": "Residual resampling of N normalised weights returns N valid indices in which particle i occurs at least floor(N*w_i) times and no particle of zero weight occurs; it refuses two-dimensional weights.", "quantifier": "all N >= 1, all normalised weights, every outcome of the multinomial draw", "why_tests_cant": "Must hold for every random outcome.", "anchors": ["pyfilter/resampling.py:residual"]}
{"id": "C12", "title": "Batched resampling acts filter by filter", "statement": "Resampling a matrix of weights, one column per parallel filter, returns in column b exactly the result of resampling column b with its own uniform.", "quantifier": "all batch sizes and particle counts, all weights and uniforms", "why_tests_cant": "Universal over the other columns.", "anchors": ["pyfilter/resampling.py:_wrapper", "pyfilter/resampling.py:systematic"]}
{"id": "C13", "title": "Recording windows keep exactly the most recent entries", "statement": "A recorded history with window True keeps everything, with window False keeps the last entry, and with an integer window k keeps the last min(k, n) of n entries in order.", "quantifier": "every sequence of recorded entries and every window", "why_tests_cant": "Universal over histories.", "anchors": ["pyfilter/container.py:make_dequeue", "pyfilter/container.py:TensorContainer.make_deque"]}
{"id": "C14", "title": "Named histories survive save and load", "statement": "Saving a container of named histories and loading it into a fresh container restores every name, every entry in order and every window.", "quantifier": "every set of names (arbitrary strings), contents and windows", "why_tests_cant": "Names are arbitrary strings that are encoded in the keys of the saved dictionary.", "anchors": ["pyfilter/container.py:TensorContainer.state_dict", "pyfilter/container.py:TensorContainer.load_state_dict"]}
{"id": "C15", "title": "A checkpoint can be loaded more than once", "statement": "Loading a saved dictionary leaves it usable: loading it a second time, into another object, restores the same histories.", "quantifier": "every container and every number of loads", "why_tests_cant": "A property of sequences of loads.", "anchors": ["pyfilter/container.py:TensorContainer.load_state_dict", "pyfilter/state.py:BaseResult.load_state_dict"]}
{"id": "C16", "title": "Named histories behave like a map", "statement": "Looking up a name returns what was last created under it (a fixed tuple shadows a growing history of the same name), membership, length and iteration agree with lookup, deleting removes the visible entry (the tuple first), item assignment is always refused, and unknown names raise.", "quantifier": "every sequence of create/append/delete operations", "why_tests_cant": "Universal over operation histories.", "anchors": ["pyfilter/container.py:TensorContainer"]}
{"id": "C17", "title": "The total log-likelihood is the sum of the step log-likelihoods", "statement": "After filtering, the reported log-likelihood equals the log-likelihood of the initial state plus the sum of the log-likelihoods of every later state, for every window of recorded states.", "quantifier": "every number of steps, every value, every recording window, every initial state", "why_tests_cant": "Aliasing between the accumulator and the first state shows only for initial states with non-zero log-likelihood.", "anchors": ["pyfilter/filters/result.py:FilterResult.__init__", "pyfilter/filters/result.py:FilterResult.append"]}
{"id": "C18", "title": "Recorded states keep their own log-likelihood", "statement": "The log-likelihood increment reported by a recorded state is not changed by appending later states.", "quantifier": "every recorded state and every later history", "why_tests_cant": "Depends on which tensors share storage.", "anchors": ["pyfilter/filters/result.py:FilterResult.append", "pyfilter/filters/particle/state.py:ParticleFilterCorrection.get_loglikelihood"]}
{"id": "C19", "title": "Resampling parallel filters keeps everything aligned", "statement": "After resampling a result of parallel filters with indices a, slot i of the log-likelihood, of every recorded moment and of every field of every recorded state holds what slot a(i) held before.", "quantifier": "every index vector, batch size, history length and window", "why_tests_cant": "Depends on aliasing between the recorded moments and the states.", "anchors": ["pyfilter/filters/result.py:FilterResult.resample", "pyfilter/filters/particle/state.py:ParticleFilterCorrection.resample"]}
{"id": "C20", "title": "Exchanging accepted filters replaces exactly the accepted slots", "statement": "After exchanging a result with another under a mask, masked slots of the log-likelihood, moments and states equal the other result's, unmasked slots and the other result are unchanged.", "quantifier": "every mask, batch size and history", "why_tests_cant": "Depends on storage sharing between states.", "anchors": ["pyfilter/filters/result.py:FilterResult.exchange", "pyfilter/filters/particle/state.py:ParticleFilterCorrection.exchange"]}
{"id": "C21", "title": "A filter result survives save and load", "statement": "Saving a filter result and loading it into a freshly initialised result of the same shapes restores the log-likelihood, the moments history and every field of the latest state including the time index; loading into a result that recorded several states or of another shape is refused.", "quantifier": "every history, window and state content", "why_tests_cant": "Universal over histories and contents.", "anchors": ["pyfilter/filters/result.py:FilterResult.state_dict", "pyfilter/filters/result.py:FilterResult.load_state_dict", "pyfilter/filters/particle/state.py:ParticleFilterCorrection.load_state_dict"]}
{"id": "C22", "title": "A checkpoint is a snapshot", "statement": "The contents of a saved dictionary do not change when filtering continues afterwards.", "quantifier": "every result and every continuation", "why_tests_cant": "Depends on which saved tensors are live references.", "anchors": ["pyfilter/filters/result.py:FilterResult.state_dict", "pyfilter/inference/sequential/state.py:SequentialAlgorithmState.state_dict"]}
{"id": "C23", "title": "Filtering T observations records T+1 entries", "statement": "Batch filtering T observations without intermediary recording leaves 1+T moments (cut to the window), the latest state is the state of the last observation, and the k-th recorded moment belongs to the k-th state.", "quantifier": "every T, every window, every model and every proposal that advances the clock (see C34)", "why_tests_cant": "Universal over lengths and windows.", "anchors": ["pyfilter/filters/base.py:BaseFilter.batch_filter", "pyfilter/filters/base.py:BaseFilter.filter", "pyfilter/filters/result.py:FilterResult.append"]}
{"id": "C24", "title": "Observations hit every k-th latent step", "statement": "With observe_every_step = k the n-th observation is used at latent time (n-1)k+1: between consecutive observations exactly k-1 pure prediction steps with zero log-likelihood happen, each recorded iff intermediary recording is on; the filter move always terminates.", "quantifier": "every k >= 1, every number of observations and every proposal that advances the clock (see C34)", "why_tests_cant": "Universal over k and lengths; includes termination.", "anchors": ["pyfilter/filters/base.py:BaseFilter.filter"]}
{"id": "C25", "title": "A missing observation is a pure prediction", "statement": "If all components of an observation are NaN the filter propagates without changing the predicted log-weights and adds exactly zero to the log-likelihood.", "quantifier": "every state, model and filter type", "why_tests_cant": "Universal over states.", "anchors": ["pyfilter/filters/base.py:BaseFilter.filter", "pyfilter/filters/particle/state.py:ParticleFilterPrediction.create_state_from_prediction"]}
{"id": "C26", "title": "The impute strategy imputes", "statement": "With nan_strategy='impute' a missing observation is replaced by an imputed value and corrected for, unlike with 'skip'.", "quantifier": "every filter, state and observation", "why_tests_cant": "Needs every path through the filter move to be examined.", "anchors": ["pyfilter/filters/base.py:BaseFilter.__init__", "pyfilter/filters/base.py:BaseFilter.filter"]}
{"id": "C27", "title": "SISR resamples exactly the degenerate filters", "statement": "In the prediction step of the SISR filter exactly the parallel filters whose ESS is below the threshold are resampled: their particles and ancestor indices are replaced by the selected ones, their log-weights become 0 and normalised weights 1/N; all other filters are untouched.", "quantifier": "all batch sizes, particle counts, state dimensions, weights and masks", "why_tests_cant": "The gather/scatter code must be right for every mask pattern.", "anchors": ["pyfilter/filters/particle/sisr.py:SISR.predict"]}
{"id": "C28", "title": "SISR weight and likelihood update", "statement": "After the SISR correction the log-weights are the predicted log-weights plus the importance log-weights and the log-likelihood is log sum_i W_i exp(v_i) with W the normalised predicted weights.", "quantifier": "all predictions; for the likelihood all importance weights that are finite or -inf and not all -inf (see C36)", "why_tests_cant": "Real-valued identity over all weights (log-sum-exp stabilisation).", "anchors": ["pyfilter/filters/particle/sisr.py:SISR.correct", "pyfilter/filters/particle/utils.py:log_likelihood"]}
{"id": "C29", "title": "APF weight and likelihood update", "statement": "After the APF correction particle i's log-weight is its importance weight minus the pre-weight of its ancestor, and the log-likelihood is log((1/N) sum exp(new weights)) + log(sum_i W_i exp(pre-weight_i)).", "quantifier": "all states, selected ancestors, and finite pre-weights and importance weights", "why_tests_cant": "Real-valued identity.", "anchors": ["pyfilter/filters/particle/apf.py:APF.correct", "pyfilter/filters/particle/utils.py:log_likelihood"]}
{"id": "C30", "title": "The SISR likelihood estimate is unbiased", "statement": "For a bootstrap SISR filter the expectation of the exponential of the estimated log-likelihood is exactly the likelihood of the observations under the model, for every ESS threshold.", "quantifier": "every number of particles, number of observations, ESS threshold, model with strictly positive observation densities, unbiased resampler", "why_tests_cant": "An expectation over all random outcomes for all lengths.", "anchors": ["pyfilter/filters/particle/sisr.py:SISR", "pyfilter/filters/particle/proposals/bootstrap.py:Bootstrap"]}
{"id": "C31", "title": "The APF likelihood estimate is unbiased", "statement": "The same for the auxiliary particle filter with bootstrap proposal and any pre-weighting function.", "quantifier": "every number of particles, number of observations, pre-weight function and model with strictly positive densities", "why_tests_cant": "An expectation over all random outcomes for all lengths.", "anchors": ["pyfilter/filters/particle/apf.py:APF"]}
{"id": "C32", "title": "Copying a filter preserves its configuration", "statement": "A copy of a particle filter has the same particle count, resampling threshold, recording options, batch shape and proposal configuration as the original.", "quantifier": "every configuration", "why_tests_cant": "A copy that differs only in the threshold still filters plausibly.", "anchors": ["pyfilter/filters/particle/base.py:ParticleFilter.copy", "pyfilter/filters/particle/base.py:ParticleFilter.__init__"]}
{"id": "C33", "title": "Increasing particles scales the threshold along", "statement": "Increasing the particle count by an integer factor multiplies the particle count and leaves the relative ESS threshold unchanged, any number of times.", "quantifier": "every starting configuration and sequence of factors", "why_tests_cant": "Universal over sequences.", "anchors": ["pyfilter/filters/particle/base.py:ParticleFilter.increase_particles"]}
{"id": "C34", "title": "Every filter move advances the clock", "statement": "Each observation advances the time index of the latent state by at least one, for every filter and proposal.", "quantifier": "every filter, proposal, state and observation", "why_tests_cant": "Time-homogeneous test models do not look at the clock.", "anchors": ["pyfilter/filters/particle/proposals/approximate.py", "pyfilter/filters/particle/proposals/bootstrap.py", "pyfilter/filters/base.py:BaseFilter.filter"]}
{"id": "C35", "title": "Filter moments are moments of the weighted particles", "statement": "The reported mean is a convex combination of the particles, the reported variance is non-negative and equals the weighted second moment minus the squared mean; the reported covariance matrix is symmetric positive semi-definite with the reported variances on its diagonal.", "quantifier": "all particle sets, weights and dimensions", "why_tests_cant": "Universal over real inputs.", "anchors": ["pyfilter/filters/particle/utils.py:get_filter_mean_and_variance", "pyfilter/filters/particle/state.py:ParticleFilterCorrection.get_covariance"]}
{"id": "C36", "title": "Total collapse is reported as likelihood zero", "statement": "If every particle is impossible given the observation (importance log-weights all -inf) the step log-likelihood is -inf.", "quantifier": "every number of particles", "why_tests_cant": "Happens only for outliers beyond every particle's support.", "anchors": ["pyfilter/filters/particle/utils.py:log_likelihood"]}
{"id": "C37", "title": "Fixed-lag smoothing returns true ancestral paths", "statement": "Fixed-lag smoothing returns, for every final particle, the sequence of the particles it actually descends from.", "quantifier": "every filter (APF, SISR), ESS threshold, number of steps, resampling outcome", "why_tests_cant": "Ancestry errors are invisible in means of short test series.", "anchors": ["pyfilter/filters/particle/base.py:ParticleFilter._do_sample_fl", "pyfilter/filters/particle/sisr.py:SISR.predict", "pyfilter/filters/particle/apf.py:APF"]}
{"id": "C38", "title": "Smoothed paths consist of filtered particles in time order", "statement": "Both smoothing methods return one value per recorded state and path, in time order, each of them a particle of the recorded state of that time.", "quantifier": "every list of recorded states, every random choice", "why_tests_cant": "Universal over random choices.", "anchors": ["pyfilter/filters/particle/base.py:ParticleFilter._do_sample_ffbs", "pyfilter/filters/particle/base.py:ParticleFilter._do_sample_fl"]}
{"id": "C39", "title": "Smoothing method names are case-insensitive", "statement": "The smoothing method name is accepted regardless of case, and every other name is refused.", "quantifier": "every string", "why_tests_cant": "Universal over strings.", "anchors": ["pyfilter/filters/particle/base.py:ParticleFilter.smooth"]}
{"id": "C40", "title": "Pyro likelihood pairs observations with the right states", "statement": "In the pyro interface, with all intermediary states recorded, the n-th observation is evaluated at the state produced by the n-th correction.", "quantifier": "every observe_every_step and number of observations", "why_tests_cant": "Universal over k and lengths.", "anchors": ["pyfilter/filters/particle/base.py:ParticleFilter._do_pyro_ffbs"]}
{"id": "C41", "title": "The linear-Gaussian proposal is optimal", "statement": "For a linear Gaussian observation the proposal density is the exact conditional density of the next state given the observation, so the importance weight does not depend on the sampled value.", "quantifier": "all means, variances > 0, coefficients, observations and sampled values", "why_tests_cant": "Real-valued identity.", "anchors": ["pyfilter/filters/particle/proposals/utils.py:find_optimal_density", "pyfilter/filters/particle/proposals/linear.py:LinearGaussianObservations.sample_and_weight"]}
{"id": "C42", "title": "The linear-Gaussian pre-weight is the predictive density", "statement": "The APF pre-weight of the linear Gaussian proposal is the predictive density of the observation given the previous state.", "quantifier": "all linear Gaussian models", "why_tests_cant": "Random-walk test models hide the error.", "anchors": ["pyfilter/filters/particle/proposals/linear.py:LinearGaussianObservations.pre_weight"]}
{"id": "C43", "title": "First-order linearisation follows the gradient", "statement": "The first-order linearised proposal moves its centre along the gradient of the log-density.", "quantifier": "all models, step counts and step sizes", "why_tests_cant": "The importance weights correct any centre, so estimates stay valid.", "anchors": ["pyfilter/filters/particle/proposals/utils.py:ModeFinder.find_mode", "pyfilter/filters/particle/proposals/utils.py:ModeFinder.find_mode_legacy"]}
{"id": "C44", "title": "Second-order linearisation is a safeguarded Newton step", "statement": "In one dimension the second-order proposal always has positive variance when the curvature is non-zero, and for a Gaussian target a single step finds the exact mode and variance.", "quantifier": "all curvatures, gradients, targets", "why_tests_cant": "Universal over reals.", "anchors": ["pyfilter/filters/particle/proposals/utils.py:ModeFinder.find_mode"]}
{"id": "C45", "title": "The nested proposal is properly weighted", "statement": "The nested proposal selects among its inner samples with probabilities proportional to the observation density and weights by their average, so that expected weight times test function equals the average of density times test function.", "quantifier": "all inner sample counts, densities and test functions", "why_tests_cant": "Expectation over the selection.", "anchors": ["pyfilter/filters/particle/proposals/nested.py:NestedProposal.sample_and_weight"]}
{"id": "C46", "title": "The batch shape of a context is set once", "statement": "Once set, the batch shape of a context never changes; setting the same shape again is accepted and setting another one is refused; parameters cannot be created before it is set.", "quantifier": "every sequence of calls", "why_tests_cant": "Universal over call histories.", "anchors": ["pyfilter/inference/context.py:InferenceContext.set_batch_shape", "pyfilter/inference/context.py:InferenceContext.named_parameter"]}
{"id": "C47", "title": "A named parameter is created once", "statement": "Requesting a name again with an equivalent prior returns the very same parameter with unchanged values, with a different prior raises and changes nothing; other parameters are never affected.", "quantifier": "every sequence of requests", "why_tests_cant": "Universal over call histories.", "anchors": ["pyfilter/inference/context.py:InferenceContext.named_parameter"]}
{"id": "C48", "title": "A refused registration leaves the context unchanged", "statement": "If registering a parameter fails, the context is as it was before, so the name can be registered correctly afterwards.", "quantifier": "every context, name and refused prior", "why_tests_cant": "Tests check that the exception is raised, not what it leaves behind.", "anchors": ["pyfilter/inference/context.py:InferenceContext.named_parameter"]}
{"id": "C49", "title": "Stacking and unstacking parameters are inverse", "statement": "Unstacking a matrix and stacking again returns the matrix, and unstacking what was stacked leaves all parameters unchanged, in constrained and unconstrained space, for any mix of parameter shapes.", "quantifier": "every set of parameters, shapes, batch sizes and values", "why_tests_cant": "Universal over shapes and values.", "anchors": ["pyfilter/inference/context.py:InferenceContext.stack_parameters", "pyfilter/inference/context.py:InferenceContext.unstack_parameters", "pyfilter/inference/parameter.py:PriorBoundParameter.update_values_"]}
{"id": "C50", "title": "A refused update changes no parameter", "statement": "If unstacking constrained values is refused because some value is out of bounds, no parameter has been changed.", "quantifier": "every set of parameters and values", "why_tests_cant": "Needs a failing parameter after a succeeding one.", "anchors": ["pyfilter/inference/context.py:InferenceContext.unstack_parameters", "pyfilter/inference/parameter.py:PriorBoundParameter.update_values_"]}
{"id": "C51", "title": "Exchange and resample act row-wise on all parameters", "statement": "Exchanging under a mask copies exactly the masked rows of every parameter from the other context; resampling replaces row i of every parameter by its former row a(i).", "quantifier": "every mask/index vector, any parameters and shapes", "why_tests_cant": "Universal over masks and shapes.", "anchors": ["pyfilter/inference/context.py:InferenceContext.exchange", "pyfilter/inference/context.py:InferenceContext.resample"]}
{"id": "C52", "title": "A context survives save and load", "statement": "Loading the saved state of a context into a context with the same priors restores every parameter value; other parameter names or prior arguments are refused.", "quantifier": "every context", "why_tests_cant": "Universal over contexts.", "anchors": ["pyfilter/inference/context.py:InferenceContext.state_dict", "pyfilter/inference/context.py:InferenceContext.load_state_dict"]}
{"id": "C53", "title": "A loaded context is independent of its source", "statement": "After loading, changing the parameters of one context does not change the other.", "quantifier": "every pair of contexts and every later operation", "why_tests_cant": "Depends on storage sharing.", "anchors": ["pyfilter/inference/context.py:InferenceContext.state_dict", "pyfilter/inference/context.py:InferenceContext.load_state_dict"]}
{"id": "C54", "title": "Copying a context yields an equal, independent context", "statement": "A copied context has the same names, priors and values in the same order, and later changes to either do not affect the other.", "quantifier": "every context and every later operation", "why_tests_cant": "Depends on storage sharing.", "anchors": ["pyfilter/inference/context.py:InferenceContext.copy", "pyfilter/inference/context.py:InferenceContext.apply_fun"]}
{"id": "C55", "title": "Leaving a context block restores the active context", "statement": "After a with-block on a context ends, normally or by an exception, the active context is the one that was active before.", "quantifier": "every nesting of with-blocks, including re-entry", "why_tests_cant": "Universal over nestings.", "anchors": ["pyfilter/inference/context.py:InferenceContext.__enter__", "pyfilter/inference/context.py:InferenceContext.__exit__", "pyfilter/inference/context.py:InferenceContext.get_context"]}
{"id": "C56", "title": "Contexts are thread-local", "statement": "Entering and leaving contexts in one thread never changes the active context of another thread.", "quantifier": "every interleaving of operations of any number of threads", "why_tests_cant": "Universal over interleavings.", "anchors": ["pyfilter/inference/context.py:InferenceContext.__new__", "pyfilter/inference/context.py:InferenceContext.stack"]}
{"id": "C57", "title": "Suspending prior verification is scoped", "statement": "Prior verification is off exactly inside a suspension block and on again after it, also if the block raises.", "quantifier": "every nesting of suspension blocks and exceptions", "why_tests_cant": "Universal over nestings.", "anchors": ["pyfilter/inference/context.py:InferenceContext.no_prior_verification"]}
{"id": "C58", "title": "Prior equivalence means equal distributions", "statement": "Two priors count as equivalent iff they are of the same family with equal parameters.", "quantifier": "every pair of priors", "why_tests_cant": "Universal over pairs of distributions, including wrapped ones.", "anchors": ["pyfilter/inference/prior.py:verify_same_prior", "pyfilter/inference/prior.py:PriorMixin.equivalent_to"]}
{"id": "C59", "title": "Sequential bookkeeping matches the number of observations", "statement": "After processing n observations with any sequential algorithm the iteration counter is n, the ESS history has n+1 entries, and SMC2 has stored exactly the n observations in order, whatever rejuvenations and particle increases happened.", "quantifier": "every observation sequence and every rejuvenation pattern", "why_tests_cant": "Universal over histories.", "anchors": ["pyfilter/inference/sequential/base.py:SequentialParticleAlgorithm.step", "pyfilter/inference/sequential/state.py:SequentialAlgorithmState", "pyfilter/inference/sequential/smc2.py:SMC2._step", "pyfilter/inference/sequential/kernels/mh.py:ParticleMetropolisHastings._increase_states"]}
{"id": "C60", "title": "SMC2 rejuvenates exactly when degenerate", "statement": "SMC2 rejuvenates after an observation iff the ESS is below the current threshold times the number of particles or some weight is not finite.", "quantifier": "every state, observation and threshold schedule", "why_tests_cant": "Universal over states.", "anchors": ["pyfilter/inference/sequential/smc2.py:SMC2._step"]}
{"id": "C61", "title": "Threshold schedules are what they say", "statement": "A constant threshold is constant; a decaying threshold never increases, never falls below its minimum and halves every half-life until then; an interval threshold returns the value of the first interval containing the iteration and the ending value afterwards.", "quantifier": "all iterations and all parameters", "why_tests_cant": "Universal over iterations and schedules.", "anchors": ["pyfilter/inference/sequential/threshold.py"]}
{"id": "C62", "title": "The combined algorithm switches after the configured number of observations", "statement": "A combined algorithm processes the first `switch` observations with the first algorithm and all later ones with the second.", "quantifier": "every switch value and number of observations", "why_tests_cant": "Off-by-one over all lengths.", "anchors": ["pyfilter/inference/sequential/base.py:CombinedSequentialParticleAlgorithm._step"]}
{"id": "C63", "title": "Fixed-width NESS updates once per block", "statement": "Fixed-width NESS with finite weights updates the particles exactly once per block_len observations, each time after a full block has been parsed.", "quantifier": "every block length and number of observations", "why_tests_cant": "Off-by-one over all lengths.", "anchors": ["pyfilter/inference/sequential/ness.py:FixedWidthNESS.do_update_particles"]}
{"id": "C64", "title": "State-particle increases are capped", "statement": "SMC2 doubles the state particles at most max_increases times; the next need for an increase raises and leaves the particle count unchanged.", "quantifier": "every run", "why_tests_cant": "Universal over runs.", "anchors": ["pyfilter/inference/sequential/kernels/mh.py:ParticleMetropolisHastings._increase_states"]}
{"id": "C65", "title": "The rejuvenation loop judges by the average acceptance rate", "statement": "During rejuvenation, after each PMMH step the judged rate is the mean of the acceptance rates so far; the loop runs at most the configured number of steps and particles are increased iff that mean is below the acceptance threshold after some step.", "quantifier": "every sequence of acceptance rates", "why_tests_cant": "Universal over sequences.", "anchors": ["pyfilter/inference/sequential/kernels/mh.py:ParticleMetropolisHastings.update"]}
{"id": "C66", "title": "Every parameter particle keeps the filter that was run for it", "statement": "In SMC2 and PMMH, at every time, slot i of the filter result is the outcome of running a filter with the parameters in slot i over all observations so far, and the model used for the next observation is built from the current parameters.", "quantifier": "every run, every resampling and acceptance outcome", "why_tests_cant": "Invariant over all histories.", "anchors": ["pyfilter/inference/batch/mcmc/utils.py:run_pmmh", "pyfilter/inference/sequential/kernels/mh.py:ParticleMetropolisHastings.update", "pyfilter/inference/sequential/smc2.py:SMC2"]}
{"id": "C67", "title": "Callbacks run once per observation on the new state", "statement": "Each registered callback runs exactly once per observation, in registration order, duplicates and None being ignored, and sees the state that the step returns.", "quantifier": "every set of callbacks and every run", "why_tests_cant": "Universal over runs.", "anchors": ["pyfilter/inference/sequential/base.py:SequentialParticleAlgorithm.step", "pyfilter/inference/sequential/base.py:SequentialParticleAlgorithm.register_callback", "pyfilter/inference/sequential/collectors.py:Collector"]}
{"id": "C68", "title": "Parameter weights accumulate the likelihood since the last update", "statement": "The log-weight of a parameter particle is the sum of its step log-likelihoods since the last rejuvenation (plus the likelihood ratio if that was a particle increase).", "quantifier": "every run", "why_tests_cant": "Universal over runs.", "anchors": ["pyfilter/inference/sequential/state.py:SequentialAlgorithmState.append", "pyfilter/inference/sequential/kernels/online.py:OnlineKernel.update", "pyfilter/inference/sequential/kernels/mh.py:ParticleMetropolisHastings.update"]}
{"id": "C69", "title": "Online jittering keeps parameter and filter of the same ancestor", "statement": "In an online update the new parameter of slot i is the jittered value of the ancestor whose filter slot i receives; with discrete jittering each slot is either exactly its ancestor's parameters or the jittered ones; log-weights are reset to zero.", "quantifier": "every weight vector, index vector and noise", "why_tests_cant": "Universal over random outcomes.", "anchors": ["pyfilter/inference/sequential/kernels/online.py:OnlineKernel.update"]}
{"id": "C70", "title": "PMMH accepts with the Metropolis-Hastings probability", "statement": "A proposal is accepted with probability min(1, ratio of likelihood x prior x reverse proposal to forward proposal), which makes the chain reversible with respect to likelihood x prior; proposals with undefined ratio are rejected.", "quantifier": "all parameter pairs, likelihood estimates, priors and kernels", "why_tests_cant": "A probability over the continuous uniform, for all real inputs.", "anchors": ["pyfilter/inference/batch/mcmc/utils.py:run_pmmh"]}
{"id": "C71", "title": "The PMMH chain records every iteration", "statement": "After n iterations each chain has n+1 samples, sample k being the parameters after iteration k; earlier samples never change, and rejected iterations repeat the previous sample.", "quantifier": "every run", "why_tests_cant": "Universal over runs; depends on copies being taken.", "anchors": ["pyfilter/inference/batch/mcmc/state.py:PMMHResult", "pyfilter/inference/batch/mcmc/pmmh.py:PMMH.fit"]}
{"id": "C72", "title": "The random-walk kernel stays centred at the current parameters", "statement": "Throughout a PMMH run with the random walk proposal, the kernel of every chain is centred at that chain's current parameters.", "quantifier": "every run and acceptance pattern", "why_tests_cant": "Invariant over runs.", "anchors": ["pyfilter/inference/batch/mcmc/proposals/random_walk.py:RandomWalk", "pyfilter/inference/batch/mcmc/utils.py:run_pmmh"]}
{"id": "C73", "title": "The gradient proposal uses the current gradient", "statement": "The gradient-based kernel is centred at the current parameters plus step size times the gradient at the current parameters, each time it is built.", "quantifier": "every number of builds", "why_tests_cant": "Needs the kernel to be built more than once on one context.", "anchors": ["pyfilter/inference/batch/mcmc/proposals/gradient.py:GradientBasedProposal.build"]}
{"id": "C74", "title": "Shrinkage kernels preserve mean and variance", "statement": "The shrinking and Liu-West kernels leave the weighted mean of the parameters unchanged, and shrinkage plus noise variance adds up to the variance they were fitted to.", "quantifier": "all parameter samples, weights and shrinkage factors", "why_tests_cant": "Real-valued identity.", "anchors": ["pyfilter/inference/sequential/kernels/jittering.py:ShrinkingKernel", "pyfilter/inference/sequential/kernels/jittering.py:LiuWestShrinkage"]}
{"id": "C75", "title": "Jitter scale is robust and bounded below", "statement": "The robust variance is non-negative and never exceeds the weighted variance, and the standard deviation used for jittering is never below the configured minimum, for every kernel.", "quantifier": "all samples, weights and kernels", "why_tests_cant": "Universal over inputs and kernels.", "anchors": ["pyfilter/inference/sequential/kernels/jittering.py:robust_var", "pyfilter/inference/sequential/kernels/jittering.py:JitterKernel.jitter"]}
{"id": "C76", "title": "Quasi-random points stay strictly inside the unit cube", "statement": "Points drawn for inversion sampling lie strictly between 0 and 1 in every coordinate, with and without randomisation, and all draws of one engine use the same rotation.", "quantifier": "all engine outputs, rotations and number of draws", "why_tests_cant": "Boundary values come only from rare points.", "anchors": ["pyfilter/inference/qmc.py:EngineContainer.sample"]}
{"id": "C77", "title": "The second-order proposal has a valid covariance", "statement": "For a vector state the second-order linearised proposal has a positive definite covariance matrix whenever the Hessian is invertible.", "quantifier": "all symmetric invertible Hessians", "why_tests_cant": "Saddle points and ill-conditioned Hessians do not occur in the test models.", "anchors": ["pyfilter/filters/particle/proposals/utils.py:ModeFinder.find_mode"]}
{"id": "C78", "title": "Quasi-random initialisation sets every parameter from its own columns", "statement": "Initialising the parameters of a quasi-random context sets every parameter, for every member of the batch, to the inverse distribution function of its unconstrained prior at the parameter's own columns of the quasi-random matrix, mapped to constrained space.", "quantifier": "every set of parameters, shapes, batch sizes and quasi-random matrices", "why_tests_cant": "Universal over shapes and values; the tests use scalar parameters.", "anchors": ["pyfilter/inference/context.py:QuasiInferenceContext.initialize_parameters", "pyfilter/inference/parameter.py:PriorBoundParameter.inverse_sample_"]}
{"id": "C79", "title": "NESS moves the parameters exactly when degenerate", "statement": "NESS resamples and jitters the parameters before an observation iff the effective sample size of the parameter weights after the previous observation is below the threshold or one of these weights is not finite.", "quantifier": "every state, observation, threshold and benign callback", "why_tests_cant": "Universal over states.", "anchors": ["pyfilter/inference/sequential/ness.py:NESS.do_update_particles", "pyfilter/inference/sequential/ness.py:BaseOnlineAlgorithm._step"]}
{"id": "C80", "title": "Law of the FFBS paths", "statement": "The paths returned by backward simulation have the law of the backward decomposition: the expected average over the paths of any function of a path is the average over the final particles by weight, continued backwards with probabilities proportional to weight times transition density.", "quantifier": "every list of recorded states with finite weights, every number of particles, every positive transition density and every function of a path", "why_tests_cant": "A statement about a law over all functions of a path.", "anchors": ["pyfilter/filters/particle/base.py:ParticleFilter._do_sample_ffbs"]}
{"id": "C81", "title": "Backward simulation joins states one step apart", "statement": "Consecutive recorded states of a run, which smoothing joins by the one-step transition density of the model, are one step of the model apart.", "quantifier": "every filter, observation sequence and setting of the options", "why_tests_cant": "Universal over runs and options.", "anchors": ["pyfilter/filters/particle/base.py:ParticleFilter._do_sample_ffbs", "pyfilter/filters/base.py:BaseFilter.batch_filter"]}
{"id": "C82", "title": "Unbiased likelihood estimates with every proposal", "statement": "With the Linearized, LinearGaussianObservations and NestedProposal proposals the exponential of the summed log-likelihoods of a SISR or APF run has the marginal likelihood of the observations as its mean.", "quantifier": "all models in the proposal's class, unbiased resamplers, numbers of particles and parallel filters, kernels returned by the mode finder, numbers of inner samples, observation sequences and missing observations", "why_tests_cant": "A statement about a mean over all random draws and about all models.", "anchors": ["pyfilter/filters/particle/proposals/linearized.py:Linearized.sample_and_weight", "pyfilter/filters/particle/proposals/linear.py:LinearGaussianObservations.sample_and_weight", "pyfilter/filters/particle/proposals/nested.py:NestedProposal.sample_and_weight", "pyfilter/filters/particle/proposals/base.py:Proposal._weight_with_kernel"]}
{"id": "C83", "title": "The SMC2 kernel is the fitted normal distribution", "statement": "The kernel of SymmetricMH is the normal distribution with the weighted mean of the parameter particles and 1.21 times their weighted covariance; if that is not positive definite, with 1.21 times the weighted variances and independent components; it is refused if in that case some variance is zero.", "quantifier": "all numbers of particles and parameters, all parameter values and log-weights with a usable one", "why_tests_cant": "Universal over clouds of parameters, including degenerate ones.", "anchors": ["pyfilter/inference/utils.py:calc_mean_chol", "pyfilter/inference/utils.py:construct_mvn", "pyfilter/inference/batch/mcmc/proposals/symmetric_mh.py:SymmetricMH.build"]}
{"id": "C84", "title": "SMC2 accepts with the Metropolis–Hastings ratio of its kernel", "statement": "In the rejuvenation of SMC2 with SymmetricMH a candidate is accepted with the Metropolis–Hastings probability for the distribution from which the candidates are drawn.", "quantifier": "all models, clouds of parameters, weights, resampling outcomes and candidates", "why_tests_cant": "A wrong acceptance probability is invisible in a single run.", "anchors": ["pyfilter/inference/sequential/kernels/mh.py:ParticleMetropolisHastings.update", "pyfilter/inference/batch/mcmc/utils.py:run_pmmh", "pyfilter/inference/batch/mcmc/proposals/symmetric_mh.py:SymmetricMH.build"]}
{"id": "C85", "title": "The random walk in SMC2 starts from the current parameters", "statement": "In the rejuvenation of SMC2 with RandomWalk the kernel of a slot is the random walk at the parameters the slot has, so that candidates are accepted with the ratio of prior times likelihood.", "quantifier": "all models, clouds of parameters, resampling outcomes and candidates", "why_tests_cant": "A wrong acceptance probability is invisible in a single run.", "anchors": ["pyfilter/inference/sequential/kernels/mh.py:ParticleMetropolisHastings.update", "pyfilter/inference/batch/mcmc/proposals/random_walk.py:RandomWalk.build"]}
{"id": "C86", "title": "A move of the Gaussian particle filter", "statement": "The Gaussian particle filter propagates the particles, fits a normal distribution to them with their weights, and replaces them by draws: from the fitted distribution with log-weight the observation log-density (GaussianProposal), or from a kernel with log-weight observation log-density plus fitted log-density minus kernel log-density (GaussianLinearized, GaussianLinear). The log-likelihood of the move is the logarithm of the average weight. The move raises ValueError exactly if a fitted covariance is not positive definite.", "quantifier": "all numbers of particles, parallel filters and components, all states with a usable weight, all propagated particles and noise", "why_tests_cant": "Tests compare the filter with a Kalman filter within Monte Carlo error.", "anchors": ["pyfilter/filters/particle/gpf.py:GPF.correct", "pyfilter/filters/particle/proposals/approximate.py:GaussianProposal.sample_and_weight", "pyfilter/filters/particle/proposals/approximate.py:GaussianLinearized.sample_and_weight", "pyfilter/filters/particle/proposals/approximate.py:GaussianLinear.sample_and_weight", "pyfilter/filters/particle/state.py:ParticleFilterPrediction.get_predictive_density"]}
{"id": "C87", "title": "What the likelihood of the Gaussian particle filter estimates", "statement": "The mean of the likelihood estimate of a move of the Gaussian particle filter is the observation density integrated over the fitted normal distribution, averaged over the propagated particles. It is the same for all three proposals.", "quantifier": "all models, states and observations, all laws of the propagated particles with almost surely positive definite covariance", "why_tests_cant": "The mean over all random numbers cannot be measured exactly.", "anchors": ["pyfilter/filters/particle/gpf.py:GPF.correct", "pyfilter/filters/particle/proposals/approximate.py:GaussianProposal.sample_and_weight", "pyfilter/filters/particle/proposals/base.py:Proposal._weight_with_kernel"]}
{"id": "C88", "title": "How many particles the Gaussian particle filter needs", "statement": "With no more particles than the state has components every move of the Gaussian particle filter raises ValueError. With more particles, all of them usable, and a latent process with normal noise, almost every move returns.", "quantifier": "all numbers of particles and components, all states, models, proposals and observations", "why_tests_cant": "Tests use many particles for one component.", "anchors": ["pyfilter/filters/particle/state.py:ParticleFilterPrediction.get_predictive_density", "pyfilter/filters/particle/gpf.py:GPF.correct"]}
{"id": "C89", "title": "A saved sequential algorithm resumes where it stopped", "statement": "Saving the state of NESS or SMC2 after any sequence of observations, rejuvenations and particle increases, and loading it into a newly initialized state, restores weights, ESS history, parsed observations, iteration counter and filter result; continuing from the loaded state gives the same weights, histories, log-likelihood and moments as continuing the original.", "quantifier": "for all reachable states, all targets of the same shape, all further observations", "why_tests_cant": "the reachable states are unbounded histories with shared storage; a test loads one of them", "anchors": ["pyfilter/inference/sequential/state.py:59-69", "pyfilter/inference/state.py:39-47", "pyfilter/state.py:32-47"]}
{"id": "C90", "title": "A checkpoint of a sequential algorithm is a snapshot", "statement": "Loading a checkpoint gives the state at the moment it was taken, whatever the algorithm has done since and however often the checkpoint is loaded.", "quantifier": "for all reachable states, all continuations, all later loads", "why_tests_cant": "tests save and load at once; the sharing shows only after further observations", "anchors": ["pyfilter/inference/sequential/state.py:43", "pyfilter/inference/sequential/state.py:61-62", "pyfilter/container.py:131-132"]}
{"id": "C91", "title": "A saved PMMH result keeps its chain", "statement": "Saving a PMMH result and loading it into another result restores the chain of parameter samples and the filter result.", "quantifier": "for all chains and filter results", "why_tests_cant": "the loss is silent: nothing is raised and the target keeps its own samples", "anchors": ["pyfilter/inference/batch/mcmc/state.py:24-38", "pyfilter/inference/state.py:39-47"]}
{"id": "C92", "title": "The unconstrained prior is the prior in other coordinates", "statement": "The density that eval_priors(constrained=False) assigns to a row of unconstrained parameters (after unstack_parameters) is the joint prior of the parameters in unconstrained coordinates: integrating any function of the parameters against it gives the integral against the product of the prior densities over the product of the supports. The log-prior is never nan or +inf when the log-densities of the priors are not.", "quantifier": "for all numbers and sizes of parameters, all supports that are real lines, half-lines or intervals per component, all prior log-densities that are finite or -inf, all nonnegative functions of the parameters", "why_tests_cant": "a statement about integrals over all parameter values; tests evaluate the prior at single points", "anchors": ["pyfilter/inference/prior.py:47-123", "pyfilter/inference/parameter.py:68-107", "pyfilter/inference/context.py:212-253", "pyfilter/inference/batch/mcmc/utils.py:49-59"]}
{"id": "C93", "title": "PMMH with a particle filter targets the exact posterior", "statement": "With a SISR or APF filter (proper proposal, unbiased resampling) of any number of particles and the random walk proposal, the PMMH move leaves a distribution invariant under which the parameters are distributed as joint prior times likelihood of the model on the constrained space; the likelihood estimate of every move is finite and unbiased.", "quantifier": "every set of priors, every state-space model with finite log-densities, every number of particles, every list of observations", "why_tests_cant": "Exactness is a statement about the stationary distribution over all parameters and all random numbers; simulation can only bound the error.", "anchors": ["pyfilter/inference/batch/mcmc/utils.py:14-64", "pyfilter/inference/batch/mcmc/pmmh.py:PMMH", "pyfilter/inference/context.py:245-253", "pyfilter/filters/particle/sisr.py:SISR", "pyfilter/filters/particle/apf.py:APF"]}
{"id": "C94", "title": "Multinomial and residual resampling are unbiased", "statement": "Multinomial resampling draws every index from the weights of its own filter, and residual resampling of a single filter selects particle k N*w_k times on average. With either scheme the likelihood estimate of a particle filter (SISR and APF with multinomial, a single APF with residual resampling) has the likelihood as expectation.", "quantifier": "all numbers of particles and filters, all weights, all laws of torch.multinomial that meet its contract, all state space models with a density, all observation sequences", "why_tests_cant": "A statement about expectations over all draws; a test sees finitely many draws and can only check frequencies up to noise.", "anchors": ["pyfilter/resampling.py:8-21", "pyfilter/resampling.py:55-65", "pyfilter/resampling.py:68-105", "pyfilter/filters/particle/sisr.py:28", "pyfilter/filters/particle/apf.py:31"]}
{"id": "C95", "title": "SISR works with every resampling scheme", "statement": "When filters degenerate, SISR hands their weights to the resampling function it was built with (systematic, multinomial or residual) and gets indices back, one column per degenerate filter.", "quantifier": "all schemes, all normalised weights of a single filter or of a batch of filters, all sets of degenerate filters", "why_tests_cant": "The shape of the selected weights depends on which filters are degenerate and on whether there is a batch dimension; the tests use systematic resampling in filters and residual resampling only on vectors of weights.", "anchors": ["pyfilter/filters/particle/sisr.py:28", "pyfilter/resampling.py:8-21", "pyfilter/resampling.py:80-81"]}
{"id": "C96", "title": "Before the first update the sequential algorithms are importance sampling", "statement": "While SMC2, NESS or a combination of them has not updated its parameter particles, the log-weight of a particle depends on its own parameters and random numbers only, and weighting any function of the parameters by its exponential gives, in expectation over prior draws and filter noise, the integral of the function against prior times likelihood. The average weight is an unbiased estimate of the evidence. An algorithm whose thresholds never ask for more than one effective particle stays in this regime.", "quantifier": "all algorithms and combinations, all numbers of parameter and state particles, all state space models with a density, all priors, all observation sequences, all callbacks that leave finite weights alone, all dependence between the particles", "why_tests_cant": "A statement about expectations over prior draws and filter noise for every model; tests run one model with a seed and compare posterior means with a tolerance.", "anchors": ["pyfilter/inference/sequential/base.py:51-102", "pyfilter/inference/sequential/smc2.py:53-65", "pyfilter/inference/sequential/ness.py:52-59", "pyfilter/inference/sequential/ness.py:83-85", "pyfilter/inference/sequential/ness.py:107-109", "pyfilter/inference/sequential/state.py:35-44"]}
{"id": "C97", "title": "MeanCollector records the posterior mean of the returned state once per observation", "statement": "With MeanCollector registered, every successful step of a sequential algorithm appends exactly one entry to filter_means, and that entry is the mean of the filters' latest means under the normalised weights of the state that the step returns.", "quantifier": "For all models, algorithms (NESS, fixed-width NESS, SMC2, combinations), states, observations and random outcomes.", "why_tests_cant": "A test would have to hit a step in which SMC2 increases the number of state particles, and the wrong entry is still a plausible number between the smallest and largest mean.", "anchors": ["pyfilter/inference/sequential/collectors.py:46-58", "pyfilter/inference/sequential/base.py:64-80", "pyfilter/inference/sequential/kernels/mh.py:90-91"]}
{"id": "C98", "title": "Standardizer records the posterior mean of the residuals", "statement": "With Standardizer registered, the recorded number is the mean, under the weights of the parameter particles, of the means of the residuals under the weights of the state particles of each filter.", "quantifier": "For all numbers of state and parameter particles, weights and residuals.", "why_tests_cant": "When both numbers agree, the code returns a number of the right shape, which is even right for equal weights.", "anchors": ["pyfilter/inference/sequential/collectors.py:61-89"]}
{"id": "C99", "title": "NESSMC2 gives every keyword argument to the algorithm it is meant for", "statement": "NESSMC2(filter, particles, switch, smc2_kw, ness_kw) builds an SMC2 and a NESS with the same filter and number of particles, in which every setting is the value in the respective dictionary or the documented default (switch 500, SMC2 threshold 0.5, NESS threshold 0.95 times the number of particles with a shrinking kernel, and the defaults of the Metropolis-Hastings kernel). A name that neither algorithm knows, a name that collides with an argument passed internally, or a NESS threshold that is not a number raises TypeError; nothing is silently ignored.", "quantifier": "For all filters, numbers of particles, switches and dictionaries.", "why_tests_cant": "There are unboundedly many dictionaries; a misrouted or dropped setting only changes how well the algorithm works.", "anchors": ["pyfilter/inference/sequential/nessmc2.py:16-45", "pyfilter/inference/sequential/base.py:113-134", "pyfilter/inference/sequential/smc2.py:18-46", "pyfilter/inference/sequential/ness.py:20-81", "pyfilter/inference/sequential/kernels/mh.py:20-50"]}
{"id": "C100", "title": "SMC2FW can be constructed", "statement": "SMC2FW(filter, particles, switch, smc2_kw, ness_kw) builds an SMC2 and a fixed-width NESS whose settings are those in the dictionaries.", "quantifier": "For all filters, numbers of particles, switches and dictionaries.", "why_tests_cant": "There is no test of SMC2FW; a test shows a failure for some arguments, not for all.", "anchors": ["pyfilter/inference/sequential/smc2fw.py:5-15", "pyfilter/inference/sequential/base.py:130-131", "pyfilter/inference/sequential/ness.py:93-105"]}
{"id": "C101", "title": "Logging follows the run and does not change it", "statement": "fit of a sequential algorithm with DefaultLogger(func, k) calls func after observations k, 2k, ... and no others, with the state at that time; fit of PMMH, which counts from zero, after iterations 1, k+1, 2k+1, .... The progress bar shows how many iterations have been done and is closed exactly once, also after an exception. Exceptions of the algorithm and of func are passed on, and what the algorithm computes does not depend on the logger.", "quantifier": "all algorithms, data, callbacks, loggers and iterations at which something raises", "why_tests_cant": "Runs of any length with any period and any point of failure.", "anchors": ["pyfilter/inference/logging.py:DefaultLogger", "pyfilter/inference/logging.py:TQDMWrapper", "pyfilter/inference/sequential/base.py:SequentialParticleAlgorithm.fit", "pyfilter/inference/batch/mcmc/pmmh.py:PMMH.fit"]}
{"id": "C102", "title": "The posterior plot shows every component of every parameter once", "statement": "mimic_arviz_posterior draws every component of every parameter once, in the order of registration, each into its own axis, with the title name or name_i, the values in the requested coordinates (constrained for names that a dictionary leaves out) and the normalised weights of the parameter particles. The axes that are left over, and only they, are switched off. Without given axes the new figure has enough rows and not one too many.", "quantifier": "all contexts, weights, numbers of columns, given axes and settings of constrained", "why_tests_cant": "Any number of parameters with any numbers of components in either coordinates, and any grid.", "anchors": ["pyfilter/inference/plot.py:mimic_arviz_posterior"]}
{"id": "C103", "title": "Quasi-random parameters follow their priors", "statement": "After QuasiInferenceContext.initialize_parameters with randomisation, every row of parameters is a draw from the joint prior: the components are independent and component i follows prior i, whatever the point of the Sobol sequence, for priors on the line, half-lines and intervals (for which the inversion happens in unconstrained space).", "quantifier": "all numbers of parameters, priors with one component, points of the sequence and rows", "why_tests_cant": "A statement about the joint law of the parameters.", "anchors": ["pyfilter/inference/context.py:QuasiInferenceContext.initialize_parameters", "pyfilter/inference/parameter.py:PriorBoundParameter.inverse_sample_", "pyfilter/inference/qmc.py:EngineContainer.sample"]}
{"id": "C104", "title": "Quasi-random candidates follow the normal kernel", "statement": "QuasiMultivariateNormal.sample with the engine of a context draws from the normal distribution with mean loc and covariance scale_tril scale_tril^T, independently of the parameters that the context was initialised with.", "quantifier": "all dimensions, means, factors, points of the sequence and rows", "why_tests_cant": "A statement about laws and independence.", "anchors": ["pyfilter/inference/utils.py:QuasiMultivariateNormal.sample", "pyfilter/inference/qmc.py:EngineContainer.sample"]}
{"id": "C105", "title": "Patching hands on the public methods", "statement": "After patch(sub_cls, cls), every public method of sub_cls is found on cls; names that cls already had keep their meaning, private names are not handed on, and no other class is affected except by inheritance.", "quantifier": "all classes, method resolution orders, dictionaries of methods and earlier patches", "why_tests_cant": "The tests patch one class once, at import.", "anchors": ["pyfilter/inference/prior.py:patch"]}
{"id": "C106", "title": "Moving a prior keeps the distribution", "statement": "PriorMixin.to(device) returns the same distribution with all parameters on the device, for every distribution.", "quantifier": "all families of distributions, constructor arguments and devices", "why_tests_cant": "The tests move no prior.", "anchors": ["pyfilter/inference/prior.py:PriorMixin.to"]}
{"id": "C107", "title": "The legacy mode finder treats every particle on its own and returns valid kernels", "statement": "find_mode_legacy never raises: all kernels have finite means and finite positive scales. The kernel of a particle of a filter depends only on this particle and this filter.", "quantifier": "all log-densities without infinite curvatures, initial means and scales, step counts, shapes and switches", "why_tests_cant": "The tests use concave log-densities and no parallel filters in which the curvature changes sign.", "anchors": ["pyfilter/filters/particle/proposals/utils.py:ModeFinder.find_mode_legacy"]}
{"id": "C108", "title": "The legacy mode finder finds the mode of a normal target", "statement": "With second order information, find_mode_legacy returns the mode of every normal target density, from any start.", "quantifier": "all dimensions, means, precision matrices, starts and positive step counts", "why_tests_cant": "The importance weights correct any kernel, so estimates stay valid.", "anchors": ["pyfilter/filters/particle/proposals/utils.py:ModeFinder.find_mode_legacy"]}
{"id": "C109", "title": "The likelihood estimate of SISR is consistent", "statement": "With multinomial resampling, transitions and initial values drawn independently for different particles, and observation densities bounded by exp(c(y)), the mean squared error of the exponential of the summed log-likelihoods as an estimate of the likelihood is at most (2T+1) C^2 / (tau N), where T is the number of time steps (including unobserved ones), C the product of the bounds over the observed steps, tau the relative threshold of the effective sample size and N the number of particles. In particular it tends to zero as N grows.", "quantifier": "for every number of particles and of parallel filters, every relative threshold in (0, 1], every list of observations (some missing), every observation frequency, every bounded model, every generator", "why_tests_cant": "An average over all random draws, a bound with an explicit constant for every number of particles and every model, and a limit.", "anchors": ["pyfilter/filters/particle/sisr.py:SISR.predict", "pyfilter/filters/particle/sisr.py:SISR.correct", "pyfilter/filters/particle/utils.py:log_likelihood", "pyfilter/resampling.py:multinomial", "pyfilter/filters/particle/base.py:ParticleFilter.__init__"]}
{"id": "C110", "title": "Filter averages of SISR are consistent", "statement": "In the setting of C109, averages of a function with values in [0, 1] over the particles of the last state, weighted by the normalised weights, have a mean squared error of at most 4 (2T+1) (C/L)^2 / (tau N) as estimates of the average of the function over the state given the observations, L being the likelihood. In particular it tends to zero as N grows.", "quantifier": "for every measurable function with values in [0, 1] and all inputs of C109", "why_tests_cant": "An average over all random draws, a bound with an explicit constant for every number of particles and every model, and a limit.", "anchors": ["pyfilter/filters/particle/sisr.py:SISR.predict", "pyfilter/filters/particle/sisr.py:SISR.correct", "pyfilter/filters/particle/utils.py:log_likelihood", "pyfilter/resampling.py:multinomial", "pyfilter/filters/particle/base.py:ParticleFilter.__init__", "pyfilter/filters/particle/state.py:ParticleFilterCorrection"]}
{"id": "C111", "title": "The likelihood estimate of the APF is consistent", "statement": "With multinomial resampling, transitions and initial values drawn independently for different particles, the bootstrap proposal, observation log-densities of at most c(y) and pre-weights between c0(y) and c2(y), the mean squared error of the exponential of the summed log-likelihoods of the APF as an estimate of the likelihood is at most (2T+1) C^2 / N, where T is the number of time steps (including unobserved ones), C the product of exp(c(y) - c0(y) + c2(y)) over the observed steps and N the number of particles. In particular it tends to zero as N grows.", "quantifier": "for every number of particles and of parallel filters, every list of observations (some missing), every observation frequency, every bounded model, all bounded pre-weights, every generator", "why_tests_cant": "An average over all random draws, a bound with an explicit constant for every number of particles and every model, and a limit.", "anchors": ["pyfilter/filters/particle/apf.py:APF.correct", "pyfilter/filters/particle/utils.py", "pyfilter/resampling.py", "pyfilter/filters/particle/base.py"]}
{"id": "C112", "title": "Filter averages of the APF are consistent", "statement": "In the setting of C111, averages of a function with values in [0, 1] over the particles of the last state, weighted by the normalised weights, have a mean squared error of at most 4 (2T+1) (C/L)^2 / N as estimates of the average of the function over the state given the observations, L being the likelihood. In particular it tends to zero as N grows.", "quantifier": "for every measurable function with values in [0, 1] and all inputs of C111", "why_tests_cant": "An average over all random draws, a bound with an explicit constant for every number of particles and every model, and a limit.", "anchors": ["pyfilter/filters/particle/apf.py:APF.correct", "pyfilter/filters/particle/state.py", "pyfilter/filters/particle/utils.py", "pyfilter/resampling.py"]}
{"id": "C113", "title": "Doubling the state particles keeps the posterior as target", "statement": "When SMC2 doubles the number of state particles, a parameter particle that is distributed as the extended target for n state particles (prior times the likelihood estimate of its filter, over parameters and random numbers) becomes, with its filter rerun on all observations with fresh random numbers and the difference of the log-likelihood estimates as log-weight, properly weighted for the extended target with 2n state particles. The filter object is rebuilt for the current parameters with 2n particles. In both targets the parameters follow prior times exact likelihood, i.e. the posterior up to the evidence.", "quantifier": "for every number of state and parameter particles, every list of observations (some missing), every prior and state-space model of the modelled kind, SISR and APF, all random numbers, every number of earlier increases below the maximum", "why_tests_cant": "An identity of integrals against every test function, over all random draws of two particle filters, for every model.", "anchors": ["pyfilter/inference/sequential/kernels/mh.py:ParticleMetropolisHastings._increase_states", "pyfilter/inference/sequential/kernels/mh.py:ParticleMetropolisHastings.update"]}
{"id": "C114", "title": "Reweighting carries the parameter particles from posterior to posterior", "statement": "A parameter particle of NESS or SMC2 that is properly weighted for the extended target of the observations so far is, after any number of further observations processed without rejuvenation, properly weighted for the extended target of all observations: the average of exp(log-weight) times a function of the parameters is its integral against prior times exact likelihood. Particles drawn from the prior start out properly weighted.", "quantifier": "for every number of parameter and state particles, all lists of earlier and further observations, every prior and model of the modelled kind, every benign callback, every joint law of the random numbers (particles may depend on each other), every particle", "why_tests_cant": "An identity of integrals against every test function, for every law of the particles, of any number of steps.", "anchors": ["pyfilter/inference/sequential/state.py:SequentialAlgorithmState.append", "pyfilter/inference/sequential/smc2.py:SMC2._step", "pyfilter/inference/sequential/ness.py:BaseOnlineAlgorithm._step"]}
{"id": "C115", "title": "Error of averages after systematic resampling", "statement": "The mean squared difference between the average of a bounded function over the particles after systematic resampling and its weighted average before tends to zero as the number of particles grows, whatever the weights.", "quantifier": "for every number of particles, every probability vector of weights, every bounded function of the particle, every uniform number", "why_tests_cant": "A limit over all numbers of particles and all weight vectors; random weights in a test almost never show the resonant pattern.", "anchors": ["pyfilter/resampling.py:systematic"]}
{"id": "C116", "title": "Bandwidths are the optimal ones", "statement": "Silverman's bandwidth, as computed from dimension and effective sample size, minimises the asymptotic mean integrated squared error of a Gaussian kernel density estimate for the standard normal distribution. Both Silverman's and Scott's bandwidths vanish while ess * h^n grows without bound. In one dimension the two differ by at most a thousandth.", "quantifier": "for every dimension, every positive effective sample size, every competing bandwidth", "why_tests_cant": "A comparison with every positive bandwidth, and limits in the sample size.", "anchors": ["pyfilter/inference/sequential/kernels/jittering.py:silverman", "pyfilter/inference/sequential/kernels/jittering.py:scott"]}
{"id": "C117", "title": "A copied filter result is equal and independent", "statement": "FilterResult.copy returns a result with the same contents (log-likelihood, histories, recorded states with times and shapes, maximal lengths), in which two places share a tensor exactly if the same places of the original do, and leaves the original unchanged. Afterwards appending, resampling and exchanging (also with each other) on either of the two, in any order, never changes the contents of the other.", "quantifier": "for every result whose tensors and states are allocated, in particular every result of a filter run, every number of parallel filters, every sequence of operations on original and copy", "why_tests_cant": "All aliasing patterns and all interleaved sequences of operations on original and copy.", "anchors": ["pyfilter/filters/result.py:FilterResult.copy", "pyfilter/inference/state.py:FilterAlgorithmState.copy"]}
{"id": "C118", "title": "The auxiliary filter with the optimal proposal is fully adapted", "statement": "In the auxiliary particle filter with LinearGaussianObservations, all particles have the same weight after every observation, and the log-likelihood of the step does not depend on the random numbers of the step.", "quantifier": "for every linear Gaussian model with positive scales, every number of particles and filters, every resampler, all states with usable weights, all observations and random numbers", "why_tests_cant": "A statement on all models and all random numbers; tests with a random walk as latent process pass.", "anchors": ["pyfilter/filters/particle/apf.py:APF.correct", "pyfilter/filters/particle/proposals/linear.py:LinearGaussianObservations.pre_weight"]}
{"id": "C119", "title": "Residual resampling has no larger variance than multinomial resampling", "statement": "Given normalised weights of a single filter and a function g of the particles, the sum of g over the resampled particles has mean N sum(w g) under residual and under multinomial resampling, and its variance under residual resampling is at most that under multinomial resampling. If all N w are integers, the sum is not random under residual resampling.", "quantifier": "for every number of particles, all normalised weights, every function g, every generator whose draws of torch.multinomial are independent", "why_tests_cant": "An inequality between variances for all weights and all functions; sampled variances only estimate it for single cases.", "anchors": ["pyfilter/resampling.py:residual", "pyfilter/resampling.py:multinomial"]}
{"id": "C120", "title": "The APF with residual resampling is consistent", "statement": "In the setting of C111 and C112, but for a single filter with residual instead of multinomial resampling, the same bounds hold: the mean squared error of the estimated likelihood is at most (2T+1) C^2 / N and that of filter averages of functions with values in [0, 1] at most 4 (2T+1) (C/L)^2 / N. In particular both tend to zero as N grows.", "quantifier": "for every number of particles, every list of observations (some missing), every observation frequency, every bounded model, all bounded pre-weights, every generator", "why_tests_cant": "A statement on expectations over all random numbers and a limit in the number of particles.", "anchors": ["pyfilter/resampling.py:residual", "pyfilter/filters/particle/apf.py:APF.correct", "pyfilter/filters/base.py:BaseFilter.batch_filter"]}
{"id": "C121", "title": "Jittering moves parameters little if the effective sample size is large", "statement": "For normalised weights the effective sample size ESS is between 1 and the number of particles, and the bandwidth factor of ShrinkingKernel and NonShrinkingKernel is 1.59 ESS^(-1/3), kept within [EPS, 1 - EPS]. Jittering with these kernels moves every parameter of every particle, compared with its ancestor, by at most r^2 D + max(r D, min_std) |noise|, where D bounds the differences between particles and r = max(EPS, 1.59 ESS^(-1/3)); r tends to EPS as ESS grows.", "quantifier": "for every number of particles and parameters, all normalised weights, all parameter values, all indices, all noise", "why_tests_cant": "A bound for all weights, parameters and random numbers, and a limit.", "anchors": ["pyfilter/inference/sequential/kernels/jittering.py:ShrinkingKernel.fit", "pyfilter/inference/sequential/kernels/jittering.py:NonShrinkingKernel.fit", "pyfilter/inference/sequential/kernels/jittering.py:JitterKernel.jitter"]}
{"id": "C122", "title": "Pickled and deep-copied contexts keep their parameters bound", "statement": "A context (or a registered parameter, together with its context) that is pickled and read again, or copied with copy.deepcopy, is a new context with the same settings, priors and names; every parameter in it has the values, requires_grad, name and prior of the original and refers to the new context; a parameter pickled on its own, or together with its context, is the very object the new context has under its name; the originals are unchanged and all values can be changed independently.", "quantifier": "for every state reached by creating contexts, setting batch shapes, registering parameters, changing values and reading pickles", "why_tests_cant": "Any number of contexts and parameters with references in both directions; an example checks one graph.", "anchors": ["pyfilter/inference/parameter.py:PriorBoundParameter.__reduce_ex__", "pyfilter/inference/parameter.py:_rebuild_parameter", "pyfilter/inference/parameter.py:PriorBoundParameter.prior", "pyfilter/inference/context.py:InferenceContext.named_parameter"]}
{"id": "C123", "title": "PMMH converges to the exact posterior", "statement": "With the random walk proposal and a particle filter that is unbiased (SISR or APF, any number of particles), the distribution of the parameters of a chain of PMMH.fit after k iterations converges in total variation to the posterior distribution (joint prior times likelihood on the constrained space, normalised), from every starting value with positive prior density, although the first filter result belongs to parameters other than the starting value.", "quantifier": "for every prior and family of state space models with finite evidence, every number of particles, every data set, every starting value with positive prior density, every measurable set of parameters and every tolerance", "why_tests_cant": "A statement about the limit of distributions over infinitely many runs; a simulation sees finitely many runs of finite length.", "anchors": ["pyfilter/inference/batch/mcmc/pmmh.py:PMMH.fit", "pyfilter/inference/batch/mcmc/pmmh.py:PMMH.initialize", "pyfilter/inference/batch/mcmc/utils.py:run_pmmh", "pyfilter/inference/batch/mcmc/proposals/random_walk.py:RandomWalk"]}
{"id": "C124", "title": "Averages of PMMH samples converge to posterior expectations", "statement": "The average of a bounded measurable function of a named parameter over the samples that PMMHResult has recorded for a chain (including the starting value) converges in mean square to its expectation under the posterior distribution, as the number of iterations grows.", "quantifier": "for every prior and family of state space models with finite evidence, every number of particles, every data set, every starting value with positive prior density, every parameter name and every bounded measurable function", "why_tests_cant": "A statement about limits over infinitely many random runs.", "anchors": ["pyfilter/inference/batch/mcmc/state.py:PMMHResult.update_chain", "pyfilter/inference/batch/mcmc/pmmh.py:PMMH.fit", "pyfilter/inference/batch/mcmc/utils.py:run_pmmh"]}
{"id": "C125", "title": "Weighted parameter particles converge to the posterior while the filters keep their size", "statement": "In the sequential algorithms with a particle filter that is unbiased (SISR or APF, any fixed number of state particles), parameters drawn independently from the prior, and as long as no update of the parameters has happened: as the number of parameter particles grows, the average of the weights converges almost surely to the evidence of the observations so far, and the average of a function under the normalised weights converges almost surely to its expectation under the posterior.", "quantifier": "for every prior and family of state space models with finite evidence, every number of state particles, every data set, every posterior-integrable measurable function of the parameters, every sequential algorithm and its settings, every list of callbacks that do not touch the parameters or weights", "why_tests_cant": "An almost sure limit in the number of particles; a simulation sees finitely many particles.", "anchors": ["pyfilter/inference/sequential/base.py:SequentialParticleAlgorithm.initialize", "pyfilter/inference/sequential/state.py:SequentialAlgorithmState.append", "pyfilter/inference/sequential/state.py:SequentialAlgorithmState.normalized_weights", "pyfilter/utils.py:normalize"]}
{"id": "C126", "title": "The first move of SMC2 and NESS happens at a predictable observation", "statement": "As the number of parameter particles grows, the recorded effective sample size relative to the number of particles converges almost surely to the squared mean over the mean square of the likelihood estimate of one particle. If this efficiency stays above the threshold for a stretch of observations, SMC2 moves nothing on them for all large numbers of particles, and if it is below the threshold after the next observation it acts at that observation; NESS acts one observation later, since it looks at the effective sample size before the filters move.", "quantifier": "for every prior, family of state space models, unbiased filter and number of state particles with finite mean likelihood estimates, every data set, every threshold (every threshold schedule for SMC2), every list of callbacks that do not touch the parameters or weights, almost every sequence of draws and all sufficiently large numbers of parameter particles", "why_tests_cant": "An almost sure statement for all sufficiently large numbers of particles.", "anchors": ["pyfilter/inference/sequential/smc2.py:SMC2._step", "pyfilter/inference/sequential/ness.py:BaseOnlineAlgorithm._step", "pyfilter/inference/sequential/ness.py:NESS.do_update_particles", "pyfilter/inference/sequential/threshold.py:Thresholder.get_threshold", "pyfilter/utils.py:get_ess"]}
{"id": "C127", "title": "The gradient proposal differentiates the complete-data log-likelihood", "statement": "The function whose gradient the gradient-based proposal takes is the average, over smoothed paths through the particles, of the joint log-density of the path and the observations (initial state, every one-step transition, every observation at the state it produced), plus the unconstrained log-prior.", "quantifier": "for every particle filter with a proposal that advances the clock, every data set, every recording window, every observe_every_step, with and without intermediary recording, every outcome of the random draws", "why_tests_cant": "The tests use one model with every step observed and all states recorded; other windows and observation frequencies are not run.", "anchors": ["pyfilter/inference/batch/mcmc/proposals/gradient.py:_model_likelihood", "pyfilter/inference/batch/mcmc/proposals/gradient.py:GradientBasedProposal.build", "pyfilter/filters/particle/base.py:ParticleFilter.smooth", "pyfilter/filters/result.py:FilterResult.states"]}
{"id": "C128", "title": "The gradient proposal steps along the gradient in the coordinates it moves in", "statement": "The gradient-based kernel is centred at the unconstrained parameters plus the step size times the gradient of the target with respect to the unconstrained parameters.", "quantifier": "for every set of priors on the real line, half-lines and intervals, every differentiable target, all parameter values and all step sizes", "why_tests_cant": "A wrong drift only changes the efficiency of the sampler, since the acceptance step corrects for it; no test of the samples sees it.", "anchors": ["pyfilter/inference/batch/mcmc/proposals/gradient.py:GradientBasedProposal.build", "pyfilter/inference/batch/mcmc/proposals/gradient.py:GradientBasedProposal.__init__", "pyfilter/inference/prior.py:PriorMixin.get_unconstrained"]}
{"id": "C129", "title": "Averages over smoothed paths are consistent for the smoothing distribution", "statement": "For a function of the whole latent path, the average over the paths that fixed-lag smoothing (`smooth(states, method=\"fl\")`) returns for a particle filter run converges, as the number of particles grows, to its average under the law of the path given all observations.", "quantifier": "for all state space models with bounded observation densities, all observation sequences (with missing observations and several steps per observation), all bounded functions of the path, all numbers of particles", "why_tests_cant": "The claim is about a limit over the number of particles and about laws; a test of finitely many seeds and particles cannot separate Monte Carlo error from the bias of leaving out the weights.", "anchors": ["pyfilter/filters/particle/base.py:ParticleFilter._do_sample_fl", "pyfilter/filters/particle/base.py:ParticleFilter.smooth", "pyfilter/filters/particle/apf.py:APF.correct", "pyfilter/filters/particle/sisr.py:SISR.predict"]}
{"id": "C130", "title": "Averages over backward-simulated paths are consistent for the smoothing distribution", "statement": "For a function of the whole latent path, the plain average over the paths that backward simulation (`smooth(states, method=\"ffbs\")`) returns after a SISR run with the bootstrap proposal and resampling in every step converges, as the number of particles grows, to its average under the law of the path given all observations; its mean squared error is of order 1/N.", "quantifier": "for all state space models with bounded observation densities and positive transition densities, all observation sequences (with missing observations and several steps per observation), all bounded functions of the path, all numbers of particles", "why_tests_cant": "The claim is about a limit over the number of particles and about joint laws of whole paths; a test of finitely many seeds and particles cannot separate Monte Carlo error from a bias in the backward weights.", "anchors": ["pyfilter/filters/particle/base.py:ParticleFilter._do_sample_ffbs", "pyfilter/filters/particle/base.py:ParticleFilter.smooth", "pyfilter/filters/particle/sisr.py:SISR.predict", "pyfilter/filters/particle/sisr.py:SISR.correct"]}
{"id": "C131", "title": "The gradient of the gradient proposal is a consistent estimate of the score", "statement": "The docstring of GradientBasedProposal promises steps along the gradient of S(theta) = log p_theta(y_1:t) + log p(theta). If all states are recorded, every step of the latent process is observed, and the filter is SISR with the bootstrap proposal that resamples in every step, the derivative of what `_model_likelihood` returns for the backward-simulated paths, taken at the parameters of the filter run, converges to the derivative of S as the number of particles grows; the mean squared error is of order 1/N.", "quantifier": "for all state space models with positive densities, bounded observation densities and log-densities that are differentiable in the parameter with bounded derivatives, all observation sequences without missing observations, all numbers of particles and of parallel filters", "why_tests_cant": "The claim relates a random derivative to the derivative of an integral over all latent paths, which is not available in closed form, and is about a limit over the number of particles.", "anchors": ["pyfilter/inference/batch/mcmc/proposals/gradient.py:_model_likelihood", "pyfilter/inference/batch/mcmc/proposals/gradient.py:GradientBasedProposal.build", "pyfilter/filters/particle/base.py:ParticleFilter._do_sample_ffbs"]}
{"id": "C132", "title": "ParameterPosterior records the posterior mean of the parameters", "statement": "With ParameterPosterior registered, every successful step of a sequential algorithm appends exactly one entry to parameter_means, and that entry is the mean of the parameters, constrained or unconstrained as requested, under the weights of the state that the step returns.", "quantifier": "for all sequential algorithms (NESS, FixedWidthNESS, SMC2 and combinations), all models, all numbers of parameter particles, all observations and draws", "why_tests_cant": "The entry is wrong only in steps in which SMC2 increases the number of state particles, which depends on the acceptance rates of its moves.", "anchors": ["pyfilter/inference/sequential/collectors.py:ParameterPosterior._mean_var", "pyfilter/inference/sequential/collectors.py:ParameterPosterior.__init__", "pyfilter/inference/sequential/collectors.py:Collector.__call__", "pyfilter/inference/sequential/base.py:SequentialParticleAlgorithm.step"]}
{"id": "C133", "title": "The linearised proposal differentiates each particle's log-density with the parameters of its filter", "statement": "With functorch, the gradient that ModeFinder computes for particle i of parallel filter b is the derivative, at that particle, of the log-density of the observation and the new state given the old particle and the parameters of filter b.", "quantifier": "for all log-densities, all numbers of particles and parallel filters, all particles, and all parameter values, whether plain numbers or parameters of a context with one value per parallel filter", "why_tests_cant": "The tests run the proposal with functorch only on models whose parameters are plain numbers.", "anchors": ["pyfilter/filters/particle/proposals/utils.py:_infer_shapes", "pyfilter/filters/particle/proposals/utils.py:ModeFinder.initialize", "pyfilter/filters/particle/proposals/utils.py:ModeFinder._model_likelihood", "pyfilter/filters/particle/proposals/utils.py:ModeFinder.find_mode"]}
{"id": "C134", "title": "do_sample_pyro registers an estimate of the log-likelihood", "statement": "With all states recorded, the factor that do_sample_pyro registers is the mean, over paths drawn backwards through the recorded particles, of the log-density of the path and the observations, each observation paired with the state it was used for; and it estimates the log-likelihood of the observations consistently in the number of particles.", "quantifier": "for all state space models with densities, all numbers of particles and parallel filters, all values of observe_every_step (for consistency: every step observed, bootstrap proposal, multinomial resampling in every step, bounded observation densities), all observations and draws", "why_tests_cant": "The tests only check that pyro runs on the factor; whether it is a log-likelihood is a statement about limits of random numbers.", "anchors": ["pyfilter/filters/particle/base.py:ParticleFilter._do_pyro_ffbs", "pyfilter/filters/particle/base.py:ParticleFilter.do_sample_pyro"]}
{"id": "C135", "title": "Pre-weights evaluate the observation at a guess of the next state", "statement": "After set_model, the pre-weights of the auxiliary filter are the log-densities of the observation, under that model, at the state the user's function predicts or, without such a function, at the mean of the next state of an affine process, one time step later; for other processes an exception is raised. It does not matter which models were set before.", "quantifier": "for all proposals that inherit pre_weight, all models, all sequences of models set before (refused ones included), all observations and states", "why_tests_cant": "The tests give every filter a proposal of its own and set models of one class only.", "anchors": ["pyfilter/filters/particle/proposals/pre_weight_funcs.py:get_pre_weight_func", "pyfilter/filters/particle/proposals/pre_weight_funcs.py:_affine_process", "pyfilter/filters/particle/proposals/base.py:Proposal.set_model", "pyfilter/filters/particle/proposals/base.py:Proposal.pre_weight"]}
{"id": "C136", "title": "Applying a function to a context", "statement": "apply_fun returns a new context with the same names and priors in the same order, whose batch shape is that of the results and whose values are the results, expanded along event dimensions of length one (a single number fills the whole parameter). The old context keeps its values and shares nothing with the new one. Results with different batch shapes, results whose events do not fit, and contexts without parameters raise.", "quantifier": "for all contexts, all functions and all later requests to either context", "why_tests_cant": "The tests apply means to two parameters and check the shapes; they neither look at values, nor at vectors, nor at what happens to the contexts later.", "anchors": ["pyfilter/inference/context.py:InferenceContext.apply_fun"]}
{"id": "C137", "title": "Errors of the filter do not add up", "statement": "If the hidden state forgets where it was (mixing with constant ε) and no observation is unlikely compared with the bound of the importance weights (ratio R), then averages over the particles of SISR have a mean squared error of at most 8 R² / (ε⁶ min(threshold, N)) after any number of observations, so that the number of particles for a given accuracy does not depend on how long the filter runs.", "quantifier": "for all models with mixing states, all independent proposals, all numbers of particles and filters, all lists of observations of any length (with missing and skipped ones) and all functions with values in [0, 1]", "why_tests_cant": "The tests compare filter means with Kalman filters on one path of a few hundred steps; a statement about all lengths, and about the mean over all draws, is out of their reach.", "anchors": ["pyfilter/filters/particle/sisr.py:SISR", "pyfilter/filters/particle/base.py:ParticleFilter", "pyfilter/filters/base.py:BaseFilter.batch_filter"]}
{"id": "C138", "title": "Predicted paths estimate the predictive distribution", "statement": "`predict_path` of a state returns one state for each of the `num_steps` times after it. Given the state, the path of every particle is a path of the latent process from that particle and different particles have independent paths, so that averages over the paths, weighted by the normalised weights of the state, are within 1/ESS (mean square) of the average over the futures of its particles. After a run of SISR they estimate the average over the future of the latent process given the observations: for functions of the whole predicted path with values in [0, 1] the mean squared error is at most (8T+6)(C/L)²/min(threshold, N), whatever the number of predicted steps, and tends to zero as the number of particles grows.", "quantifier": "for all models, independent proposals and resamplers, numbers of particles and filters, lists of observations (with missing and skipped ones), numbers of predicted steps and measurable functions of the predicted path with values in [0, 1]", "why_tests_cant": "The test of `predict_path` (tests/filters/test_particle.py:117-136) checks the shape of the result only; whether the paths have the right law, and whether the weights have to be used, is not looked at.", "anchors": ["pyfilter/filters/particle/state.py:ParticleFilterCorrection.predict_path", "pyfilter/filters/state.py:Correction.predict_path"]}
{"id": "C139", "title": "The linear proposal serves every filter of a batch", "statement": "For `B` filters of `N` particles, `sample_and_weight` of the linear proposal builds one batch of kernels: whatever parameters (coefficients, offset, scale) are shared by the filters and whatever differ between them, whether state and observation are scalars or vectors, no operation on the tensors raises, the batch shape is that of the particles, the event shape that of the state, and the density for every particle is the conditional density of the next state given the observation with the parameters of its filter.", "quantifier": "for all numbers of particles and filters, dimensions of state and observation (scalar or vector), means and scales of the next state, coefficients, offsets and scales, shared or per filter", "why_tests_cant": "The tests of the linear proposal fix the parameters, so that no batch dimension of a parameter meets the matrix products; which of them get a batch dimension depends on the priors of the user.", "anchors": ["pyfilter/filters/particle/proposals/linear.py:LinearGaussianObservations.sample_and_weight", "pyfilter/filters/particle/proposals/utils.py:find_optimal_density"]}
{"id": "C140", "title": "The linear pre-weight has a number for every particle", "statement": "For `B` filters of `N` particles, `pre_weight` of the linear proposal returns a tensor with the shape of the weights: one number for every particle, the log-density of the observation if the next state has the value of the particle as its mean, with the parameters (shared or not) of its filter.", "quantifier": "for all numbers of particles and filters, dimensions of state and observation (scalar or vector), states, scales, coefficients, offsets and observations", "why_tests_cant": "The tests run the APF with the linear proposal on models where state and observation have the same dimension; the shapes of the tensors depend on all of the sizes.", "anchors": ["pyfilter/filters/particle/proposals/linear.py:LinearGaussianObservations.pre_weight"]}
{"id": "C141", "title": "The Gaussian proposal draws states with the moments of the particles", "statement": "For `B` filters of `N` particles, the predictive density approximated by `get_predictive_density(approximate=True)` has one batch per filter and the event shape of the state, and `sample_and_weight` of `GaussianProposal` draws for every particle a state of the right shape: the weighted mean of the propagated particles of its own filter plus a factor of their weighted covariance times standard normal numbers.", "quantifier": "for all numbers of particles and filters, scalar and vector states of any dimension, particles, weights and normal numbers", "why_tests_cant": "The tests run the Gaussian filters with a few models; whether means, covariances and normal numbers of different filters and components meet in the broadcasts depends on all of the sizes.", "anchors": ["pyfilter/filters/particle/utils.py:get_filter_mean_and_variance", "pyfilter/filters/particle/state.py:ParticleFilterPrediction.get_predictive_density", "pyfilter/filters/particle/proposals/approximate.py:GaussianProposal.sample_and_weight"]}
{"id": "C142", "title": "The linear proposal draws and weighs every particle of every filter", "statement": "For `B` filters of `N` particles, `sample_and_weight` of the linear proposal returns states with the shape of the particles, each drawn from the conditional normal distribution of the next state given the observation, and weights of shape `(N, B)`, each the predictive log-density of the observation whatever state was drawn, all with the parameters (shared or not) of the particle's own filter.", "quantifier": "for all numbers of particles and filters, dimensions of state and observation (scalar or vector), means, scales, coefficients, offsets, observations and normal numbers drawn", "why_tests_cant": "The tests compare likelihoods for a few models with a tolerance; a weight or draw that takes the parameters of another filter shows only for batches of parameters and certain sizes.", "anchors": ["pyfilter/filters/particle/proposals/linear.py:LinearGaussianObservations.sample_and_weight", "pyfilter/filters/particle/proposals/base.py:Proposal._weight_with_kernel"]}
{"id": "C143", "title": "The proposal GaussianLinear draws and weighs every particle of every filter", "statement": "For `B` filters of `N` particles, `sample_and_weight` of `GaussianLinear` takes the normal distribution `N(mu, var)` of each filter, where `mu` is the mean of the transition from the weighted mean of the filter's particles and `var` its variance plus their spread, conditions it on the observation and draws a state for every particle from the result. The weight of a particle is the predictive log-density of the observation under `N(mu, var)`, corrected by the ratio of the normal density fitted to the propagated particles of its filter and `N(mu, var)`.", "quantifier": "for all numbers of particles and filters, dimensions of state and observation (scalar or vector), particles, weights, mean and scale functions, coefficients, offsets, observations and normal numbers drawn", "why_tests_cant": "The proposal sums over particles, adds dimensions back and broadcasts one kernel per filter over its particles; a sum over the wrong dimension or a moment of another filter only shows for batches of filters, and only as a biased weight.", "anchors": ["pyfilter/filters/particle/proposals/approximate.py:GaussianLinear.sample_and_weight"]}
{"id": "C144", "title": "Smoothed paths of every filter of a batch", "statement": "For one filter or several in parallel, scalar or vector states, smoothing returns a tensor with a value for every time, path and filter. With ffbs the last value of a path is the particle chosen by resampling, and going back each value is the particle of the same filter chosen by a categorical draw from the sums of its log-weight and the log-density of the next value of the path. With fl the path runs through the ancestors of the last particle in its filter.", "quantifier": "for all numbers of particles, filters and times, dimensions of the state, particles, weights, previous indices, densities and draws", "why_tests_cant": "The code adds, moves and expands dimensions; mixing up the dimension of the paths with that of the particles, or one filter with another, gives tensors of the right shape with plausible numbers.", "anchors": ["pyfilter/filters/particle/base.py:ParticleFilter._do_sample_ffbs", "pyfilter/filters/particle/base.py:ParticleFilter._do_sample_fl", "pyfilter/filters/utils.py:batched_gather"]}
{"id": "C145", "title": "The factor for pyro pairs every observation with the states at its own time", "statement": "With a batch of observations, however scalar observations are stored (as numbers or as vectors with one component, both of which the filter accepts), the factor that _do_pyro_ffbs registers has one number for every filter of the batch: the mean over its smoothed paths of the sum of the log-densities of the first state, of every later state given the one before it, and of every observation given the state at its time.", "quantifier": "for all numbers of paths, states and observations, shapes of state, observation and batch (each at most one dimension), log-densities of states and observations, smoothed paths and observations", "why_tests_cant": "Tests call the method with one storage of the observations and look whether it runs; a sum over wrong pairs of times has the right type and is still a finite number.", "anchors": ["pyfilter/filters/particle/base.py:ParticleFilter._do_pyro_ffbs"]}
{"id": "C146", "title": "The gradient proposal differentiates one number for every chain, however observations are stored", "statement": "For several chains run in parallel, and for scalar observations stored as numbers or as vectors with one component, _model_likelihood returns one number for every chain: the average over the smoothed paths of this chain of the log-density of all states and observations under the parameters of this chain, plus its log-prior. Calling backward with ones then gives each chain the derivative of its own number with respect to its own parameter.", "quantifier": "for all numbers of chains, paths and observations, shapes of state and observation (at most one dimension), densities, priors, smoothed paths and observations", "why_tests_cant": "Tests run the proposal and look at the shape of its location; a sum that pairs wrong times or adds the derivatives of other chains has the same shape.", "anchors": ["pyfilter/inference/batch/mcmc/proposals/gradient.py:_model_likelihood", "pyfilter/inference/batch/mcmc/proposals/gradient.py:GradientBasedProposal.build"]}
{"id": "C147", "title": "The nested proposal serves every particle of every filter", "statement": "For one filter or several in parallel and for scalar or vector states, NestedProposal gives every particle of every filter one of the samples drawn for this particle, chosen with the softmax of the observation densities of these samples, and as log-weight the logarithm of the average of these densities.", "quantifier": "for all numbers of samples and particles, batch shapes, event shapes of at most one dimension, samples, densities and categorical draws", "why_tests_cant": "Tests look at shapes; a choice made with the probabilities of another particle or filter has the same shape.", "anchors": ["pyfilter/filters/particle/proposals/nested.py:NestedProposal.sample_and_weight"]}
{"id": "C148", "title": "SISR.predict resamples every degenerate filter with its own weights and leaves the others alone", "statement": "For one filter or several in parallel and for scalar or vector states, SISR.predict replaces the particles of exactly those filters whose effective sample size is below the threshold by the particles that the resampling scheme chooses from the weights of the same filter, with zero log-weights and normalised weights 1/N, and records the chosen indices. Particles, log-weights, normalised weights and indices of all other filters stay as they are.", "quantifier": "for all numbers of particles and filters, event shapes of at most one dimension, particles, log-weights, indices, thresholds and resampling schemes that work column by column", "why_tests_cant": "masked_scatter copies entries in the order of memory; whether they land in the right filter depends on the order of dimensions and on which filters are degenerate, of which tests try few.", "anchors": ["pyfilter/filters/particle/sisr.py:SISR.predict", "pyfilter/utils.py:normalize", "pyfilter/utils.py:get_ess"]}
{"id": "C149", "title": "A move of SISR and of the APF treats every filter of a batch as if it were alone", "statement": "Let the proposal, the pre-weight and the resampling scheme each work filter by filter. Then after SISR.predict and SISR.correct, and after APF.predict and APF.correct, the values, log-weights, ancestors and log-likelihood estimate of each filter are those of the textbook algorithm run on that filter alone: SISR filters below the threshold move resampled particles with log-weight the new weight and estimate log of the mean of the new weights, the others add the new weight to the old and average with their normalised weights; APF filters choose ancestors by pre-weight plus weight, subtract the pre-weight of the ancestor, and add the log of the weighted mean of the exponentiated pre-weights.", "quantifier": "For all numbers of particles N > 0 and of filters (or a single one), scalar and vector states, finite log-weights, thresholds, and all proposals, pre-weights and resampling schemes that work filter by filter.", "why_tests_cant": "Tests check one model with one shape of batch and compare the sum of log-likelihoods with the Kalman filter within a tolerance; a wrong broadcast or gather in one term shifts values for some batch sizes only.", "anchors": ["pyfilter/filters/particle/sisr.py:14-56", "pyfilter/filters/particle/apf.py:16-46", "pyfilter/filters/particle/utils.py:7-22"]}
{"id": "C150", "title": "Exchanging accepted filters leaves the ancestors of rejected filters alone", "statement": "After ParticleFilterCorrection.exchange with a mask, the previous indices of the masked filters are those of the other state and those of all other filters are unchanged, whatever happened to the filter since initialize.", "quantifier": "For all numbers of filters and particles, all histories of SISR, APF and GPF moves, resamplings of filters and earlier exchanges, all masks and all indices of the other state.", "why_tests_cant": "initialize expands one column of indices to all filters, so that the columns share storage until some move makes a new tensor; tests compare likelihoods and moments, which do not read the indices.", "anchors": ["pyfilter/filters/particle/base.py:96-99", "pyfilter/filters/particle/sisr.py:23-32", "pyfilter/filters/particle/state.py:165"]}
{"id": "C151", "title": "Systematic resampling of tensors gives every filter its own offspring", "statement": "systematic, applied with its wrapper to the weights of one filter or of a batch, resamples every filter with its own normalised weights: particle n gets the first particle whose cumulated weight is not below (n + u)/N. With SISR.predict and APF.correct, in every filter that is resampled a particle with normalised weight p has between floor(N p) and ceil(N p) descendants, and the values moved are those of the recorded ancestors.", "quantifier": "For all numbers of particles N > 0 and of filters (or a single one), scalar and vector states, finite log-weights, thresholds, uniform numbers (in (0, 1) for the number of descendants), and proposals that work filter by filter.", "why_tests_cant": "Tests compare one matrix of weights with a loop; wrong axes or broadcasting show only when the numbers of filters and particles differ.", "anchors": ["pyfilter/resampling.py:8-52", "pyfilter/filters/particle/sisr.py:29-43", "pyfilter/filters/particle/apf.py:31-46"]}
{"id": "C152", "title": "In a run of SISR or the APF every filter of a batch goes its own way", "statement": "A run of batch_filter over observations and gaps, with SISR or the APF on a batch of filters, succeeds and keeps the shapes; what happens to the particles, weights and ancestors of filter b is a run of that filter alone, and its total log-likelihood is the sum of its own estimates (nothing is added at a gap). The run of filter b in the batch gives the numbers that the run with that filter alone gives (with SISR: when it is resampled with the random numbers that it has in the batch).", "quantifier": "For all lengths of runs, orders of observations and gaps, numbers of particles N > 0 and of filters, scalar and vector states, finite log-weights, resampling schemes, thresholds, and proposals and processes that work filter by filter.", "why_tests_cant": "A leak between filters, such as a maximum, mean or mask taken over the wrong dimension, shows only for particular combinations of shapes and weights, and only after some steps.", "anchors": ["pyfilter/filters/base.py:140-221", "pyfilter/filters/particle/state.py:38-42", "pyfilter/filters/particle/sisr.py:29-58", "pyfilter/filters/particle/apf.py:15-51"]}
{"id": "C153", "title": "The Gaussian particle filter treats every filter of a batch as if it were alone", "statement": "GaussianProposal.sample_and_weight draws every particle of every filter from the normal distribution with the weighted mean and covariance of the propagated particles of its own filter and weighs it with the density of the observation; GPF estimates the likelihood of each filter by the mean of its weights. A run of the GPF over observations and gaps does to filter b what a run with that filter alone does, with the same total log-likelihood.", "quantifier": "For all lengths of runs, orders of observations and gaps, numbers of particles N > 0 and of filters (or a single filter), scalar states and vectors of several components, finite log-weights, random numbers, and processes and densities that work particle by particle.", "why_tests_cant": "A moment taken over the wrong dimension, or a distribution expanded the wrong way, shows only for particular combinations of shapes and weights.", "anchors": ["pyfilter/filters/particle/gpf.py:26-34", "pyfilter/filters/particle/proposals/approximate.py:18-31", "pyfilter/filters/particle/state.py:59-69", "pyfilter/filters/particle/utils.py:25-65", "pyfilter/filters/base.py:140-221"]}
{"id": "C154", "title": "Moments of a state are those of every filter", "statement": "The mean and variance that a particle state stores, and the covariance that get_covariance returns, are for every filter of a batch those of its own weighted particles.", "quantifier": "For all numbers of particles N > 0, filters and components, scalar and vector states, finite log-weights.", "why_tests_cant": "Tests use one shape; broadcasting goes wrong for some combinations of sizes and is refused for others.", "anchors": ["pyfilter/filters/particle/state.py:95", "pyfilter/filters/particle/state.py:118-137", "pyfilter/filters/particle/utils.py:25-65"]}
{"id": "C155", "title": "Particle filters on tensors and as functions of particle and filter are the same programs", "statement": "For tensors of shape (particles, filters, state) that hold the particles, log-weights, log-likelihoods and ancestors of a filter state, predict, correct and the move over a missing observation of SISR, APF and GPF on tensors return without error and hold again what the filters modelled as functions of particle and filter return; over a whole series the tensor run ends in the tensors of the final state and adds up the log-likelihood increments of the function run. Systematic resampling on tensors selects the same particles. Hence the likelihood estimate that SISR and APF compute on tensors is unbiased for every filter of the batch.", "quantifier": "for all numbers of particles and filters, state dimensions, observation series with gaps, proposals, resamplers, transitions and states of the generator", "why_tests_cant": "The agreement is over all shapes, weights and random streams, and unbiasedness is a statement about an expectation over all of them; tests run single shapes and seeds.", "anchors": ["pyfilter/filters/particle/sisr.py:14-56", "pyfilter/filters/particle/apf.py:16-46", "pyfilter/filters/particle/gpf.py:26-34", "pyfilter/filters/particle/state.py:38-42", "pyfilter/filters/base.py:187-220", "pyfilter/resampling.py:9-45"]}
{"id": "C156", "title": "SISR and the APF on tensors are consistent", "statement": "The likelihood that SISR and the APF estimate on tensors (the exponential of the total log-likelihood of a filter of the batch), and averages over the particles that the tensors hold at the end, have mean squared errors of at most a constant over the number of particles, for every filter of the batch. Multinomial resampling on tensors selects the particles that torch.multinomial draws for the normalised weights of the same filter.", "quantifier": "For all numbers of particles and filters, scalar and vector states, observation series with gaps, values of observe_every_step, proposals with bounded weights and functions with values between 0 and 1.", "why_tests_cant": "The error is an expectation over all random streams, for all numbers of particles; a test sees single runs.", "anchors": ["pyfilter/filters/particle/sisr.py:14-56", "pyfilter/filters/particle/apf.py:16-46", "pyfilter/filters/base.py:187-220", "pyfilter/resampling.py:8-22", "pyfilter/resampling.py:55-65"]}
{"id": "C157", "title": "Smoothing on tensors returns the paths that the smoothing specification describes, filter by filter", "statement": "For every recorded history, fixed-lag smoothing and backward sampling on tensors succeed, and the returned tensor holds, at every time, for every path, filter and component, the value that the smoothing of single filters gives, with the same random draws.", "quantifier": "For all numbers of particles and filters, scalar and vector states, lengths of the history, log-weights, ancestors, transition densities, resampling schemes and draws.", "why_tests_cant": "The tensors are expanded, moved, broadcast and gathered; an index error between path, particle and filter shows only for some sizes, and returned paths are random.", "anchors": ["pyfilter/filters/particle/base.py:105-128", "pyfilter/filters/particle/base.py:130-146"]}
{"id": "C158", "title": "Standardised residuals are the noise of the observations", "statement": "Standardising an observation at a state inverts the transforms of its density in reverse order: it gives back the noise that the observation was made of, and an observation that has the law of the density gives a residual that has the law of the noise. For normal observations the residual is the z-score, for log-normal ones that of the logarithm. Densities that are not made by transforms are refused.", "quantifier": "For all observations, all noise, all laws of the noise and all lists of invertible transforms.", "why_tests_cant": "Tests try single transforms; the order matters for several transforms only, and the law of residuals is a statement on all samples.", "anchors": ["pyfilter/inference/sequential/collectors.py:66-77"]}
