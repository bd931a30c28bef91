{
 "C01": "False when every log-weight is NaN or +inf (result is NaN, the uniform fallback is dead code); proved otherwise.",
 "C03": "False in the presence of NaN or +inf (cleaning in place changes the second result); proved otherwise.",
 "C08": "False for the uniform draw 0; proved for positive draws.",
 "C10": "False for one-dimensional weights (keyword lost) and Python floats (refused); proved for matrices and tensors.",
 "C14": "False for names containing 'tensor_' and for a history shadowed by a tuple of the same name; proved otherwise.",
 "C15": "False: loading empties the dictionary of the histories; proved that a second load restores nothing, and what is kept.",
 "C17": "False for initial states with non-zero log-likelihood (counted twice); proved otherwise for every sequence of appends and resamplings.",
 "C18": "False for the initial state (its log-likelihood is the accumulator); proved for every appended state.",
 "C19": "False for log-likelihood and moments stored in the states; proved for the accumulator, recorded moments, particles, weights and indices.",
 "C20": "False when two recorded states share an index tensor and the other result's do not agree; proved otherwise.",
 "C22": "False for the log-likelihood (live reference); proved for everything else.",
 "C26": "False: nan_strategy is never read; both strategies give the same move.",
 "C30": "Expectation over a generator whose states have law P and whose draws are independent of what is left (Spec.Draws). C30_sisr_unbiased: any unbiased resampler, any threshold, missing observations, any observation frequency. C30_systematic: with the default resampler. C30_proper_proposals: any proposal with proper importance weights. Weights are exact reals; finite log-densities (positive densities).",
 "C31": "As C30, for the APF with any finite measurable pre-weight function (it may depend on all particles).",
 "C32": "False: the threshold is multiplied by the particle count and the pre-weight function is lost; the rest is proved kept.",
 "C34": "False for the Gaussian and Gaussian-linearised proposals (copy keeps the time index): the clock stands still; proved for the others.",
 "C35": "False for get_covariance (refuses vector states with parallel filters of different sizes, returns wrong numbers when sizes agree by accident); mean, variance and covariance formulas proved.",
 "C36": "False: the step log-likelihood is NaN when all importance weights are -inf; proved when some particle of weight zero is possible.",
 "C37": "False for SISR: a step without resampling keeps the previous step's indices, which smoothing then applies once more. Proved in full for APF and for SISR that resamples at each step, and as long as the stored indices are the initial ones.",
 "C39": "False: fixed lag is compared without lowering, so FL, Fl and fL are refused; everything else proved.",
 "C42": "False: the state is used in place of its conditional mean, and a scalar observation of a vector state gives one number per component. Proved for random walks.",
 "C43": "False for the default (functorch) finder, which adds the step size whatever the gradient; proved for the legacy finder.",
 "C48": "False: a refused batched prior is stored all the same and its name is lost for good; proved for known names and without batch shape.",
 "C50": "False: parameters before the one out of bounds have been overwritten; proved that it and all later ones are unchanged.",
 "C52": "False: wrapped priors (Independent, transformed) have no declared arguments, so a state saved under another prior is accepted. Proved: names are checked, plain arguments are checked, and equal ones are restored.",
 "C53": "False: a state dictionary loaded as it is shares storage with its source; proved for a dictionary that went through disk.",
 "C55": "False under re-entry (leaving removes the first entry); proved without re-entry, and that the same contexts stay active in every case.",
 "C57": "False for nested blocks (the inner one switches verification on for the rest of the outer one); proved for unnested blocks.",
 "C58": "False for Independent and transformed distributions, for arguments that broadcast and for NaN; proved for plain distributions with arguments of equal lengths.",
 "C60": "False of the code: get_ess cleans the accumulated weights in place before smc2.py:60 looks at them, so a weight of -inf is never seen as non-finite (C60_negation). True when no accumulated weight is -inf.",
 "C61": "False for interval thresholds with a value below the ending value, which acts as a lower bound; everything else proved.",
 "C62": "False of the code: base.py:164 compares with <=, so the first algorithm processes switch + 1 observations (C62_split_partial, C62_negation).",
 "C63": "False of the code: the counter is increased before it is tested, so the update comes after block_len - 1, 2 block_len - 1, ... observations (C63_negation). Proved: the exact schedule and that exactly one update falls due in any block_len consecutive observations; block_len 0 raises.",
 "C64": "C64_capped, C64_first_observations, C64_results: the filter results always have been computed with the current number of state particles, for every algorithm, also after TooManyIncreases.",
 "C66": "False for PMMH (the model is built before the means of the priors are written) and for SMC2 with a quasi-random context (the same with the quasi-random points). Proved for SMC2 with the plain context, for live parameters with any context, and for PMMH slots that have accepted a candidate.",
 "C67": "False of the code: after a particle increase the callbacks get the discarded state object (C67_negation). Proved: once per observation, in order; registration; which object they get.",
 "C68": "False of the code for log-likelihoods -inf, which become the lowest finite number (C68_negation). Proved for finite log-likelihoods and ratios.",
 "C70": "Reversibility and invariance are for the state of one slot (parameters and random numbers of its filter) and proposals whose density in a slot depends on the parameters of that slot (the random walk, by C72). The accept probability holds for every proposal object.",
 "C73": "False of the code: PyTorch adds to an existing .grad, and build never clears it, so from the second build on one context the location is displaced by the gradients of all earlier builds. True of the first build.",
 "C74": "The mean part is proved. The variance part is false when the robust variance is the interquartile one (the points are shrunk relative to the weighted variance); proved when both variances agree, and that the total lies between them.",
 "C75": "False for the constant kernel with a Python float, which raises (float has no clamp); everything else proved.",
 "C77": "False for indefinite Hessians and for positive definite ones with condition number above two, since only the smallest eigenvalue is looked at; proved for negative definite ones.",
 "C78": "False for priors whose unconstrained event has another number of entries (raises); proved otherwise.",
 "C79": "C79_negation: a weight of -inf has been replaced by the lowest finite number before the check, so it does not trigger. C79_trigger_partial: NaN and +inf do, and the ESS; with callbacks that leave the weights alone. C79_first: before the first observation.",
 "C80": "For any unbiased resampler and categorical draws (randomness as in C30); Lemmas/Categorical shows that drawing by inversion satisfies the hypothesis, the case uses systematic resampling. Weights and log-densities finite.",
 "C81": "C81_negation: with observe_every_step > 1 and without recording of intermediary states the recorded states are observe_every_step apart (C81_unrecorded_gaps), yet the density of a single step is used. C81_recorded_steps_partial: holds if intermediary states are recorded or every step is observed.",
 "C82": "Linearized: for any normal kernel with invertible scale that depends measurably on the particle, so for both mode finders whatever they return; the transition must have the density used in the weights. LinearGaussianObservations: for normal increments with positive scales, positive observation noise and any Cholesky routine with L Lᵀ = S that is measurable. NestedProposal: any transition kernel and any positive number of inner samples. Random draws as in C30/C31; the APF theorems take any finite measurable pre-weight. Inputs where a proposal raises or forms non-finite kernels (C42, C44, C77) are outside the hypotheses.",
 "C83": "`cholesky_ex` is any function that factors positive definite matrices and sets the flag on other symmetric ones. A cloud in which a parameter has a single value cannot be rejuvenated (ValueError).",
 "C84": "False: the reverse density is that of a normal distribution fitted to the candidates (run_pmmh builds a new kernel on the proposal context with uniform weights), not of the one they were drawn from (C84_acceptance, C84_negation). C84_same_moments_partial: true when the candidates have the mean and covariance of the weighted parameters. Stated for one PMMH step without an increase.",
 "C85": "False: the kernel is built before the context is resampled (mh.py:55-57), so it is centred at the parameters the slot had before (C85_acceptance, C85_negation). C85_unmoved_partial: true for slots resampled to themselves. Stated for one PMMH step without an increase.",
 "C86": "C86_gaussian, C86_linearized and C86_linear, one per proposal. For GaussianLinear the kernel and the weight are spelled out (conditioned normal, predictive density). For a vector state with one component see C141.",
 "C87": "C87_gaussian, C87_linearized and C87_linear. The observation density is read at the time of the old particles (C34).",
 "C88": "C88_too_few and C88_enough, each for the three proposals.",
 "C89": "Proved for every execution of initialization, observations, in-place rejuvenations, masked exchanges and increases, with storage sharing.",
 "C90": "False: state_dict holds the live weight tensor (and the live log-likelihood), so a checkpoint loaded after k further observations combines the old counter, ESS history, parsed data and moments with the newest weights (C90_mixture); a second load restores no histories (C90_second_load).",
 "C91": "False for the chain: PMMHResult inherits state_dict and never stores samples (C91_chain_lost). The filter result is restored (C91_filter_partial).",
 "C92": "Supports with a componentwise bijection (real line, half-lines, intervals). Simplices, Cholesky factors and other supports whose bijection mixes components are not modelled, nor is torch's clipping of the sigmoid.",
 "C93": "Composition of the filter model (C30), PMMH move (C70) and prior evaluation (C92). SISR and APF (GPF is not unbiased). The proposal scale is fixed.",
 "C94": "torch.multinomial is assumed to draw each index with probability proportional to the given numbers; joint law of the draws is left open. Residual resampling is used for a single filter, since it refuses batches (C11, C95).",
 "C95": "False for residual resampling: indexing with the mask always gives a two-dimensional tensor, which residual refuses, so SISR raises NotImplementedError at the first resampling, even for a single filter. Proved for the other two schemes.",
 "C96": "SISR or APF with an unbiased resampler, contexts whose parameters are not replaced after the model was built (not QuasiInferenceContext, see C66), observation densities that are positive at the particles.",
 "C97": "False when SMC2 increases the number of state particles: the callback is given the discarded state, whose weights are those from before the resampling while its filter results were already resampled and moved, so particles are weighted twice (C97_weighted_twice, C97_negation: 0.9 recorded, 0.5 in the returned state). In all other steps the claim holds (C97_mean_partial); C97_entry_partial states the entry in every case, C97_count that there is one entry per observation.",
 "C98": "False for particle filters: the code sums over the last dimension, which runs over the parameter particles, so it raises an exception unless there are as many state as parameter particles (C98_sizes), and otherwise exchanges the roles of the two (C98_exchanged). The claim holds for other filters (C98_other_filters) and for equal weights and equal numbers (C98_uniform_partial).",
 "C99": "Settings that constructors only store are not checked by the code when the algorithm is built. The context is taken from the stack and not part of this property.",
 "C100": "False for all arguments: make_second is called with three positional arguments but takes two, so the constructor always raises TypeError (C100_never). Fixed-width NESS by itself handles its arguments as claimed (C100_alone_partial), and so does make_second when it is called without the context (C100_second_partial).",
 "C101": "C101_calls, C101_progress, C101_function, C101_closed, C101_zero (log_every_iteration = 0 raises) for sequential algorithms, C101_pmmh and C101_pmmh_progress for PMMH. Callbacks must not touch the iteration counter.",
 "C102": "True for given axes (C102_given: IndexError if there are too few) and for new figures, except for one panel in one column (C102_figure_partial). There plt.subplots(1, 1) returns an Axes without ravel and AttributeError is raised (C102_single, C102_negation). No panels: ValueError (C102_empty).",
 "C103": "True up to the tails: the squeeze of qmc.py:49 cuts off mass eps / 2 on both sides of every component (C103_law_partial gives the exact distribution function, C103_close the distance 1 - (1 - eps)^m of the joint laws, C103_scrambled the same without rotation for uniform points). Hence not exactly the prior (C103_negation). Priors with several components have no icdf in torch and are not covered.",
 "C104": "The law of each candidate for a given kernel is right up to the tails that the squeeze cuts off, at distance at most 1 - (1 - eps)^d (C104_law_partial). It is not independent of the initial parameters: the engine rotates by one vector for its whole life, so that candidates are determined by any one row of initial parameters and the sequence (C104_determined, C104_negation).",
 "C105": "True of the first patch with a given sub_cls (C105_first_partial, C105_others). The list of applied patches remembers only sub_cls, so a second class is never patched (C105_once, C105_negation).",
 "C106": "True of families whose constructor requires exactly the arguments of arg_constraints, such as Normal (C106_single_partial). False of families with several parametrisations, such as Bernoulli and MultivariateNormal: all of them are passed, and the constructor raises ValueError (C106_several, C106_negation). Independent and TransformedDistribution have empty arg_constraints: TypeError (C106_other).",
 "C107": "Kernels are always valid (C107_valid). Each kernel is that of the particle alone if the state is a vector, the observation a scalar or no second order information is used (C107_alone_partial). For a scalar state with a vector observation the smallest curvature is taken over the last dimension, which is then that of the parallel filters: a filter with positive curvature keeps its initial kernel as soon as another filter of its row has none (C107_coupled, C107_newton, C107_negation).",
 "C108": "True of targets with independent components, where mean and variance are those of the target (C108_independent_partial). False of correlated components: the column sums of the Hessian stand in for its inverse, and from (1, 0) the step goes to (1/3, -1/3) instead of 0 (C108_correlated, C108_negation).",
 "C109": "The main theorem also covers other proposals with bounded importance weights and other resamplers that draw ancestors independently. Systematic resampling, the default of the code, does not draw independently and is not covered.",
 "C110": "As for C109, any resampler and proposal that draw independently, with bounded importance weights, are covered; systematic resampling is not.",
 "C111": "The main theorem also covers other proposals, if importance weight over pre-weight of the ancestor is bounded and pre-weights are bounded above (so fully adapted proposals too), and other resamplers that draw ancestors independently. Systematic resampling, the default of the code, does not draw independently and is not covered.",
 "C112": "As for C111, other proposals and resamplers that draw independently are covered; systematic resampling is not.",
 "C113": "Hypothesis on the particle before the increase: it follows the target for n particles. That the move of the code leaves it invariant is not always true (C84, C85), so the two are not composed.",
 "C114": "Unlike C96 it starts anywhere (for example after a rejuvenation that keeps the target) and makes no assumption on the law of the other particles.",
 "C115": "False of the code: with alternating weights and the indicator of the heavy particles the error is exactly one quarter for every even number of particles and every uniform number, because all positions share one uniform number. Proved instead: the error is at most the variation of the function along the particles divided by their number, so it is at most range / N for sorted values.",
 "C116": "The asymptotic error formula is taken from Silverman (1986) as specification; its derivation from the estimate is not formalised. Real arithmetic.",
 "C117": "deepcopy of the standard library is modelled with its memo; the container of further tensors of BaseResult is not (only the two histories of the filter result). Appended states reuse only tensors of the result they are appended to, as in SISR.",
 "C118": "False of the code, because pre_weight takes the previous state in place of its conditional mean (C42): for x' = x/2 + u two particles get different weights. Proved for random walks with any scale; the weights of the code for all models are stated in C118_weights, and for SISR the weights do not depend on the random numbers of the step.",
 "C119": "Proved.",
 "C120": "Proved. C111 and C112 are stated for all steady resamplers (unbiased, variance of sums at most N H^2), of which multinomial and residual resampling are cases.",
 "C121": "Proved.",
 "C122": "Proved for pickle. False for copy.deepcopy: PriorBoundParameter inherits __deepcopy__ of torch.nn.Parameter, which copies only the data and requires_grad, so every parameter of a deep copy has no context and raises AttributeError when asked for its prior.",
 "C123": "Proved. The initial model is built before the parameters are overwritten by the prior mean (pmmh.py:60-68), so the first likelihood estimate is one of other parameters; the theorem covers this, since it holds for any finite estimate at the start.",
 "C124": "Proved.",
 "C125": "Proved. The statement is conditional on runs without update, whose occurrence is settled by C126.",
 "C126": "Proved. The case of efficiency equal to the threshold is left open on purpose: the limit does not decide it. An exception while jittering counts as acting in the statement for NESS.",
 "C127": "False in general, proved if all states are recorded and every step is observed. With the default window (record_states=False) and at least two observations it raises; with a window of two states it silently evaluates all observations at the last state; with observe_every_step > 1 it raises if the intermediary states are recorded, and otherwise evaluates the one-step transition density between states several steps apart.",
 "C128": "False: the gradient is taken with respect to the constrained parameters and added to the unconstrained ones, so the derivative of the bijection is missing. Proved for unconstrained parameters; proved that the step is still uphill for small step sizes unless a parameter is bounded above only, and downhill if all are. The standard deviation is the one of the Langevin algorithm.",
 "C129": "False as stated: `_do_sample_fl` follows the ancestors but never uses the weights of the last state, and returns one path per particle without weights (`C129_no_weights`, `C129_negation`: two observation densities, same random numbers, same paths, different smoothing laws). Proved: weighted with the normalised weights of the last state, the averages over exactly the returned paths have mean squared error O(1/N) against the smoothing distribution (APF; SISR for the ancestral paths, which are the returned ones if every step resamples), hence converge.",
 "C130": "The code resamples in every step when `ess_threshold` times the number of particles exceeds the number of particles, which the constructor accepts (`ess_threshold > 1`). With a lower threshold, ancestors of steps that do not resample are not random, and the argument used here (backward weights are the conditional law of the ancestor) does not apply; that case is not covered. Draws of different particles are independent.",
 "C131": "One real parameter per parallel filter, the others held fixed: the theorem gives each component of the gradient. `lp` is whatever `eval_priors(constrained=False)` returns as a function of that parameter. What happens when states are missing or steps are skipped is C127; in which coordinates the step is then taken is C128; that gradients accumulate over several builds is C73. As for C130, resampling in every step is needed.",
 "C132": "Fails as C97 does: `step` hands the state it was given to the callbacks, not the one it returns. When SMC2 increases the number of state particles, the weights of the old state meet parameters that have already been resampled with them, so that particles are weighted twice (`C132_weighted_twice`; 0.9 instead of 0.5 in the case). `concat_parameters` is a method of the model that is not defined in /repo (nor is it the `stack_parameters` of the context); the model takes what it returns as an argument.",
 "C133": "Fails for parameters of a context: `vmap` slices the argument `parameters`, but `_model_likelihood` does not use it and the densities read the parameters of the captured model, which hold the values of all filters. The log-density of one particle is then a vector, and `functorch.grad` raises. Without a batch shape `_infer_shapes` still maps over dimension 0, which does not exist. What is assumed of functorch is in the comments of the model: `grad` refuses anything but scalars, `vmap` refuses to map over a dimension that does not exist, and captured tensors are not sliced. The steps of the search are C43 and C44; without functorch see C107.",
 "C134": "The factor is what the docstring describes, path by path (`C134_complete`), and its gradient in a parameter is a consistent estimate of the gradient of the log-likelihood (`C134_gradient_partial`). Its value is not an estimate of the log-likelihood, although `_do_pyro_ffbs` says so: it is the mean of the complete-data log-density. With fair coins as states and an observation that tells nothing it is -2 log 2 for every number of particles, while the log-likelihood is 0 (`C134_negation`). Optimisers that only use gradients are not affected; anything that compares values of the factor at different parameters is. The docstring of `do_sample_pyro` calls the method experimental and without theoretical justification.",
 "C135": "False when a proposal object without own function is used for models of different classes: `set_model` stores the default it finds where the user's function would be, so the default found for the first model is kept as if the user had passed it. After a process that is not affine, the pre-weights for affine ones raise as well; after an affine one, those for others raise an AttributeError about `mean_scale` instead of the message (`C135_reused`). Proved if a function was passed or the classes agree, and for the linearised proposals, which refuse other models. Copies of proposals (C32) start afresh.",
 "C136": "A mean over all entries of a vector parameter is written to all its entries (`C136_number`): the parameters of the new context then need not lie in the support of the prior. This is what `copy_` does, and is not an error. Results with fewer dimensions than the events, other than numbers, are not covered.",
 "C137": "C110 has a bound for all models that grows with the number of observations; this one needs mixing. Only SISR with `increment = 1` and independent resamplers (multinomial) is covered, as in C110; the auxiliary filter is not.",
 "C138": "The method does not use the weights of the state; the weighting with them is left to the caller (as in examples/stochastic-volatility.ipynb), and a case shows that the plain mean over the paths is something else. Only hidden states are modelled, not the observations that `sample_states` draws along. The bound for whole runs is for SISR; the law given the state holds for every state.",
 "C139": "False for vector observations whose offset differs between the filters: `find_optimal_density` multiplies the precision matrix with `y - b` (`o_inv_cov.matmul(y)`, utils.py:260) without adding a dimension, so PyTorch reads the observations less offsets of all filters as one matrix. This raises unless there are as many filters as components; then, with a shared scale, filter `f` weighs all components by the precision of component `f`. Proved for scalar observations and for shared offsets.",
 "C140": "False if one of state and observation is a scalar and the other a vector. Scalar state, vector observation: `x.value.unsqueeze(-1)` (linear.py:83) turns particles or filters into rows of a matrix and the product raises. Vector state, scalar observation: `a.squeeze(-1) * x.value` (linear.py:80) keeps the components and `Normal` raises unless the number of components equals that of filters (particles) by accident; one component gives an N x N matrix. Proved for the other cases, for batches and for a single filter. That the state stands in for its mean is C42.",
 "C141": "False for vector states with one component: `mean.squeeze_(-1)` (particle/utils.py:63) drops their dimension. With a single filter `MultivariateNormal` is then given a mean without dimensions and raises; with `B > 1` filters the means of the filters are taken for the components of a state (event shape `[B]`) and the draw raises. Proved for all other states, for batches and for a single filter. That `MultivariateNormal` and `Normal` refuse a covariance that is not positive is in C86, not here.",
 "C142": "False, like C139, for vector observations whose offset differs between the filters: `find_optimal_density` raises, unless there are as many filters as components. Proved for scalar observations and for shared offsets, and for a single filter. The densities of the model (stochproc) are functions on tensors that are assumed to give one number per particle.",
 "C143": "False for vector observations whose offset differs between the filters (as C139: raises, unless there are as many filters as components) and for vector states of one component (as C141: with a single filter the call never returns). Proved otherwise, for propagated clouds with a positive definite covariance. Also proved for a single filter (`C143_single_filter`).",
 "C144": "The log-density of the latent process (stochproc) is a function on tensors that is assumed to broadcast; C144_normal_density and C144_mvn_density show that Normal (scalar states) and MultivariateNormal (vectors) do. Log-weights are numbers here, not infinite. Which states the indices point to (C37) and the law of the draws (C80) are other properties.",
 "C145": "False of the code for scalar observations stored as vectors with one component: the view at base.py:201-202 keeps that component as a dimension of its own, so that every observation is compared with the states at all times and the factor of a single filter has a number for every path (C145_extra_dimension gives the values; C145_negation is a concrete case). Proved if observations are stored with the shape the observation model has (C145_pairs_partial).",
 "C146": "Every step of the latent process is observed here (as many observations as transitions); otherwise see C127. Unlike in C145, the observations are reshaped to the event shape of the observation model, so their storage does not matter. Densities and prior (stochproc, pyro) are functions on tensors that are assumed to give one number per time, path and chain; C145_normal_density shows it for Normal.",
 "C147": "Log-densities are finite numbers here; infinite and NaN ones, and the law of the draws, are in C45 and C82. The observation density is a function on tensors that gives one number per sample, particle and filter; C147_normal_density shows it for Normal and scalar observations, stored as numbers or as vectors with one component.",
 "C148": "Log-weights are finite numbers here; infinite and NaN ones are in C01-C05 and C27. That systematic and multinomial resampling work column by column is C12; residual resampling refuses the two dimensions that indexing with the mask produces (C95).",
 "C149": "Log-weights are finite numbers here; infinite and NaN ones are in C01-C05 and C27. That proposals work filter by filter is shown in C140-C143 and C147; for the draws of resampling schemes see C12. The full SISR move is stated for a batch; for a single filter combine C149_sisr_correct with C148_single_filter.",
 "C150": "False: initialize expands one column to all filters, and SISR moves without resampling hand it on, so that the in-place write of exchange reaches rejected filters too: all filters get the ancestors of the last accepted one (fixed-lag smoothing then follows wrong ancestors). Proved for every history with at least one move that makes a new tensor; harmless between filters whose indices are still the initial ones, as always for the GPF. Two states that share one tensor are C20.",
 "C151": "Weights are finite numbers here, for infinite and NaN ones see C06-C10. The n-th filter below the threshold uses the n-th uniform number. The results C06-C09 (counts, zero weights, unbiasedness) are tied to this model by C151_offspring.",
 "C152": "Log-weights are finite numbers here, and the process is observed at every step. Which of the random numbers a SISR filter gets for resampling depends on how many filters before it are resampled at that step (C151): C152_sisr_alone compares with the filter run alone with those numbers.",
 "C153": "For vectors of one component the proposal fails, see C141. Covariances have to be positive definite (else PyTorch refuses them), which is not part of the tensor model, see C86. Log-weights are finite numbers.",
 "C154": "Mean and variance: true, for a batch or a single filter. get_covariance: true for scalar states; false for vector states: (w * x).sum(dim=0) lines up the filters of the weights with the components of the values. PyTorch refuses it unless sizes are equal or one; with as many particles as filters as components it uses the weights of other filters (right only for equal weights). Witness of wrong numbers: all particles at one place, covariance 1/4 instead of 0. For a single filter see C35.",
 "C155": "The two models of the particle filters (tensors with reshaping, broadcasting and masked indexing; functions of particle and filter) are proved to agree step by step and over series observed every k steps, with missing observations, for one batch dimension of filters and scalar or vector states with finite log-weights. Unbiasedness of SISR and APF is carried over to tensors. The bootstrap proposal and the default pre-weights on tensors follow from the transition and the observation density (C155_bootstrap, C155_pre_weight).",
 "C156": "The bounds are those of C109-C112, carried over by C155. The resampler of SISR has to draw independently (multinomial), that of the APF steadily (multinomial, residual). Refusals of torch.multinomial are not part of the tensor model; normalised weights are positive.",
 "C157": "Finite log-weights and log-densities, one batch dimension of filters, states with at most one dimension. What a draw of Categorical does to the generator may not depend on the logits. The results on Model/Smoothing (C37, C38, C129) thereby hold for the tensors. C157_recorded: the states of the filters on tensors (C155) are such recorded states.",
 "C158": "The transforms are functions with inverses (PyTorch); the density is taken at a given state. Standardizer takes the states of the filter after the observation has been seen, which depend on it; the law of what it then records (C98) is not covered."
}