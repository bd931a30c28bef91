{
"C01":["`normalize1/2` (Utils)","algebra of exp; case analysis on NaN, ±inf"],
"C02":["`normalize1/2`","algebra"],
"C03":["`normalize1/2` returning also the cleaned argument","case analysis"],
"C04":["`getEss1/2` (Utils)","Cauchy-Schwarz, both equality cases"],
"C05":["`normalize2`, `getEss2`","extensionality"],
"C06":["`systematic` (Resampling)","monotonicity of first positions in a sorted list"],
"C07":["`systematic`","counting integers in half-open intervals of length N·w_i"],
"C08":["`systematic`","empty interval; counterexample at u = 0"],
"C09":["`systematic`","Lebesgue integral over the uniform draw"],
"C10":["`_wrapper` with its keyword handling","unfolding, counterexample"],
"C11":["`residual` with the multinomial outcome as argument","counting"],
"C12":["`_wrapper` on matrices","extensionality"],
"C13":["`make_dequeue`, `Deq`","list induction"],
"C14":["`TensorContainer.state_dict/load_state_dict`, keys as character lists","invariant over all operations, string lemmas, counterexample"],
"C15":["same, with the dictionary as a mutable argument","unfolding"],
"C16":["`TensorContainer` methods","simulation against a specified map"],
"C17":["`FilterResult` on a heap of tensors","separation invariant, induction over histories"],
"C18":["same","same"],
"C19":["same, `resample`","same; aliasing counterexample"],
"C20":["same, `exchange`","same; counterexample with shared index tensor"],
"C21":["same, `state_dict/load_state_dict`","unfolding on the heap"],
"C22":["same","separation invariant; counterexample for the accumulator"],
"C23":["`FilterOps.batchFilter` (Filter)","induction over observations"],
"C24":["`FilterOps.filter`, `loop`","loop variant (time modulo k), induction"],
"C25":["`FilterOps.filter`, `createState`","unfolding"],
"C26":["`FilterOptions.nanStrategy`","both strategies compute the same"],
"C27":["`sisrPredict` with row-major `maskedScatter`","rank/enumeration lemma for scatter"],
"C28":["`sisrCorrect`, `logLikelihood`","algebra in `XF`"],
"C29":["`apfCorrect`","algebra in `XF`"],
"C30":["`bootstrapModel`, SISR, `filterAll`, systematic resampler","backward function, integral over generator states, induction over time; multi-step"],
"C31":["same for the APF","same"],
"C32":["`Config`: constructor and `copy`","unfolding, counterexample"],
"C33":["`Config.increaseParticles`","induction"],
"C34":["`ProposalKind.increment`, filters","case analysis; clock stands still by induction"],
"C35":["`Moments`","convexity, sums of squares; broadcasting counterexample"],
"C36":["`logLikelihood`","case analysis"],
"C37":["`smoothFl` with ghost ancestry `Spec.Lineage`","induction over lineages; counterexample"],
"C38":["`smoothFfbs`, `smoothFl`","induction over states"],
"C39":["`smooth`, `doSamplePyro` method dispatch","case analysis on strings"],
"C40":["`pyroPairs` (slicing)","position arithmetic over C24"],
"C41":["`findOptimalDensity` (Proposals)","completing the square, matrix identities"],
"C42":["`linearPreWeight`","same; counterexamples"],
"C43":["`ModeFinder.find_mode`, legacy","unfolding; counterexample"],
"C44":["scalar second-order step","algebra"],
"C45":["`nestedWeight`, `nestedProb`","algebra of softmax"],
"C46":["`Context` state machine","invariant over histories"],
"C47":["same","same"],
"C48":["same","counterexample, unfolding"],
"C49":["`stackParameters`, `unstackParameters`","induction over parameters, chunk lemmas"],
"C50":["`unstackParameters`","induction over parameters"],
"C51":["`exchange`, `resample`","induction, masked scatter lemma"],
"C52":["`stateDict`, `loadStateDict`","induction over names"],
"C53":["same, storage of parameters","separation"],
"C54":["`copy`/`applyFun`","separation, induction"],
"C55":["context stack, code made of with-blocks","structural induction over code"],
"C56":["thread-indexed stacks","unfolding"],
"C57":["`no_prior_verification` blocks","structural induction over code"],
"C58":["`verifySamePrior`","case analysis, broadcasting"],
"C59":["sequential algorithms (Sequential)","invariant over runs"],
"C60":["`smc2Step`","case analysis"],
"C61":["`Threshold`","real analysis, sorted lists"],
"C62":["`Combined`","induction over runs"],
"C63":["`FixedWidthNESS`","arithmetic modulo block_len"],
"C64":["`increaseStates`","invariant over runs"],
"C65":["`rejuvenate` loop","induction over steps"],
"C66":["slots of parameters and results","invariant over runs"],
"C67":["`step`, `register_callback`","induction over callbacks"],
"C68":["accumulated weights","invariant over runs"],
"C69":["`onlineUpdate` (Jitter), `discreteMix`","unfolding"],
"C70":["`runPmmh` (Pmmh)","measure of the acceptance event; detailed balance on product space"],
"C71":["`fit` loop and `PMMHResult`","induction over iterations"],
"C72":["`RandomWalk.exchange`","invariant over iterations"],
"C73":["`GradParam` with `.grad` accumulation","induction over builds"],
"C74":["shrinking and Liu-West kernels","algebra of weighted moments"],
"C75":["`robustVar`, `jitter`","order"],
"C76":["`EngineContainer.sample` (Qmc)","intervals, fractional part"],
"C77":["vector second-order step","spectral argument on quadratic forms; counterexamples"],
"C78":["`QuasiInferenceContext.initialize_parameters`","induction over parameters"],
"C79":["`NESS.do_update_particles`","case analysis, runs"],
"C80":["`smoothFfbs`","integral over generator states, induction over states"],
"C81":["`filterAll` and the recorded times","arithmetic over C24"],
"C82":["`linearizedModel`, `linearModelFilter`, `nestedModel`","change of variables for normal kernels, integral over generator states, C30/C31"],
"C83":["`calcMeanChol`, `constructMvn`, `symmetricMh` (Symmetric)", "matrix algebra"],
"C84":["`smcUpdate` with `symmetricMh`", "unfolding, C83; counterexample with two particles"],
"C85":["`smcUpdate` with `randomWalk`", "unfolding; counterexample with two particles"],
"C86":["`gpfMove`, `gaussianSample`, `gaussianLinearizedSample`, `gaussianLinearSample`, `predictiveDensity`", "unfolding; C41 for the linear kernel"],
"C87":["`gpfMove` with random numbers drawn independently", "law of the samples (`gauss_law`), importance sampling, Fubini"],
"C88":["`gpfMove` with `affinePropagate`", "rank of the differences of the particles; a nonzero polynomial in independent normal numbers almost surely does not vanish"],
"C89":["Model/Checkpoint.lean: SeqObj.new, newSmc2, init, append, appendData, record, observe, rejuvenate, increase, stateDict, loadStateDict over the heap of Model/FilterResult.lean", "separation invariant (Lemmas/Checkpoint.lean), round trip of the two concrete history names, simulation of the specification SeqView.observe"],
"C90":["as C89", "exact description of what a later load gives; negation on a concrete SMC2 state"],
"C91":["Model/Checkpoint.lean: PmmhObj.new, updateChain, stateDict, loadStateDict", "C21 for the filter result, unfolding for the chain"],
"C92":["`Model/Prior.lean`: torch transforms `exp`, `sigmoid`, `affine` and their composition by `biject_to`, `get_constrained`, `get_unconstrained`, `unconstrained_prior().log_prob`, `eval_prior`, the column slices of `unstack_parameters`, `eval_priors`", "Derivative of every bijection equals (up to sign) the exponential of its log-Jacobian; bijections are onto the supports and undone by their inverses; change of variables with a diagonal derivative; the slices of the row are a measure preserving equivalence"],
"C93":["Model/PmmhFilter.lean builds the PMMH environment from the filter model at the parameters read from the context; Spec/PmmhFilter.lean states model and likelihood", "SISR: the filter whose generator state carries the parameters is covered by C30's induction, which gives a jointly measurable estimate; APF: an induction of its own for joint measurability, expectation from C31; then C70_invariant for invariance and C92_change_of_variables for the marginal"],
"C94":["`multinomial` and `residual` through `_wrapper`, with `torch.multinomial` as an arbitrary sampler whose draws have the right marginal laws (`Spec.DrawsMultinomial`).", "The law of the result is the image of the law of the draws; the expected number of selections of the residual scheme is split into the fixed and the random positions. The filters follow from C30 and C31."],
"C95":["Weight tensors of one or two dimensions, `weights[..., mask]` of SISR, and the three resampling functions on either shape.", "Case analysis on shapes and schemes; the negation is a single filter with two particles."],
"C96":["`Model/Sequential.lean` with the filter of `Model/PmmhFilter.lean` in every slot.", "By induction over the run the state is untouched: parameters, models and random numbers are those of the start and the weight is the log-likelihood of the filter result, whose exponential is unbiased (C30, C31, C93). Tonelli gives the expectation."],
"C97":["`meanCollector` (Model/Collectors.lean) as a callback of the sequential algorithms of Model/Sequential.lean; the mean of a filter is an arbitrary function of its record", "induction over the algorithm shows that steps leave the recorded entries alone and leave usable weights, for which normalisation gives shares of the mass; the negation computes a step of SMC2 with two particles"],
"C98":["`standardize`, `standardizeParticles` and PyTorch's vector product `dot` (Model/Collectors.lean); residuals are arguments", "direct computation with finite sums; the exchange of the sums for equal weights"],
"C99":["Python's argument binding (`Sig.bind`) and every constructor on the way (Model/Construct.lean)", "a general theorem about binding when required parameters are positional, applied to every signature"],
"C100":["`smc2fw`, `makeSecondFw`, `fixedNess` (Model/Construct.lean)", "binding of one positional argument too many fails for every dictionary"],
"C101":["Model/Logging: both loggers, do_log, __exit__, and fit of the sequential algorithms (over Seq.step) and of PMMH (over Mcmc.fitStep) as a loop with a logger. The description of the bar is left out; run_pmmh has no exceptions.", "Induction over the observations against the run without a logger (Seq.run, Mcmc.fitLoop); the iteration number is that of C59."],
"C102":["Model/Plot: mimic_arviz_posterior over parameters given by name, number of elements and values in both coordinates. plt.subplots and ravel are modelled by the kind and number of axes; _do_plot by what it is given; the density estimate and drawing are not modelled.", "Induction over components and parameters; the panels are specified as a flat list numbered from zero, with the requested coordinates looked up directly in the argument."],
"C103":["Model/QuasiSample: inverse_sample_ with TransformedDistribution.icdf of torch (including the change of sign for decreasing bijections), and initialize_parameters over Qmc.Engine.sample. icdf of the prior is an argument; uniform_() is uniform on [0, 1).", "Rotations preserve the uniform law (fundamental domains of the integers); inversion of a uniform number gives the prior (Galois property of the inverse distribution function); products of measures. Examples use the uniform prior and the quantile function of the normal distribution, which is shown to exist."],
"C104":["Model/QuasiSample: QuasiMultivariateNormal.sample over Qmc.Engine.sample and GaussKernel.sample, for kernels without batch shape (the only ones in use). Normal.icdf is the inverse distribution function of the standard normal law.", "As C103, then the affine image of standard normal numbers (C82)."],
"C105":["Model/Patch: classes with dictionaries of methods, attribute lookup along the method resolution order, setattr, the loop of patch and applied_patches. Attributes of metaclasses are not modelled.", "Induction over the names of sub_cls, with an invariant describing the names that cls has gained so far."],
"C106":["Model/Patch: families with arg_constraints, accepted, required and alternative arguments, and attributes computed from those given; the constructor raises as in torch. Values are abstract.", "The pairs collected by the loop are a permutation of the arguments given."],
"C107":["Model/ModeLegacy: the loop of find_mode_legacy on floats, with first and second derivatives of the log-density as given functions, the minimum over the last dimension, masks and the checks of Normal.", "Cases on the floats of one entry; induction over the steps relating the finder to the finder given one particle."],
"C108":["Model/ModeLegacy, with the derivatives tied to a target log-density by HasDerivAt.", "Uniqueness of derivatives gives gradient and Hessian of the target; one turn reaches the mode from any finite point."],
"C109":["The particle filters of `Model/Particle` with `Model/Bootstrap` and `multinomial2`", "Second moments of the estimate are propagated backwards through prediction, resampling and correction (`EstV`): resampling, moving and weighting add at most C^2/min(threshold, N) each, because a filter that is not resampled has an effective sample size of at least the threshold; `filterAll_run` unrolls the run into elementary steps"],
"C110":["As C109; weights are normalised by `normalize2`", "The error is (error of likelihood times average)/L minus average times (error of likelihood)/L; both are bounded by the second moments of C109"],
"C111":["The APF of `Model/Particle` with `Model/Bootstrap` and `multinomial2`", "Second moments of the estimate are propagated backwards (`EstQ`); the variance is kept as W plus Q times the sum of squared weights: moving particles adds to Q, and a correction (selection by pre-weights and moving, each adding C^2/N) turns Q into Q/N because weights after it are bounded"],
"C112":["As C111; weights are normalised by `normalize2`", "As C110, from the second moments of C111"],
"C113":["`increaseStates` of `Model/Sequential`, the filters of `Model/Particle` through `ParticleModel.env`", "The estimate is a measurable function of parameters and random numbers (`point_estimate`) with mean the exact likelihood (C67/C92); the quotient of the two estimates is the new weight, and the old one cancels in the integral"],
"C114":["`run`, `step`, `init` of `Model/Sequential` with the filters of `Model/Particle`", "In kept steps the log-weight stays the log-likelihood estimate plus a constant (`atState_run`), so the weight gains the quotient of the estimates"],
"C115":["`systematic1`, `systematic2` of `Model/Resampling`", "Numbers of offspring of a prefix of the particles differ from the expected number by less than one (`offspring_prefix`); summation by parts gives the bound (`systematic_error`)"],
"C116":["`silverman`, `scott` of `Model/Jitter`", "Weighted arithmetic-geometric mean inequality for the minimum; powers `n + 4` of both factors in closed form"],
"C117":["`Res.copy` of `Model/Copy` on the storage model of `Model/FilterResult`", "Invariant of the memo (`Copying.Good`): copies are new, distinct and equal in content; footprints (`Off`, `Same`) show that each operation writes only to storage of its own result"],
"C118":["`linearModelFilter`, `linearPreWeights` of `Model/KernelProposal`, the APF of `Model/Particle`", "C29 with C41 (importance weight is the predictive density) and C42"],
"C119":["`residualResampler`, `multinomial2` of `Model/Multinomial`", "pairwise independence of the ancestors (`residual_pairs`), variance of a sum, Cauchy-Schwarz"],
"C120":["the APF of `Model/Particle` with `residualResampler` of `Model/Multinomial`", "C111 and C112 for steady resamplers; residual resampling is steady (`residualOr_steady`)"],
"C121":["`bwFac`, `Kernel.fit`, `Kernel.jitter` of `Model/Jitter`", "bounds on the robust variance (C75), on the shrinkage and on the effective sample size (Cauchy-Schwarz)"],
"C122":["`Model/Pickle`: objects with references (`Graph`), `named_parameter` with `set_name`/`set_context`, the walk of `pickle` with its memo through `__reduce_ex__` and `_rebuild_parameter`, and `copy.deepcopy`", "invariant of the walk (every object in the memo is a finished copy bound to the new context), preserved item by item; all reachable states are well formed"],
"C123":["`Model/PmmhRun`: the loop of `fit` on independent random numbers (standard normals, generator of the filter, uniforms), on top of `Model/Pmmh` and `Model/PmmhFilter`; `Spec/Posterior`", "a slot of the batch is a chain on parameters and likelihood estimate; its kernel is reversible with an everywhere positive flow (`Lemmas/Converge`, `Lemmas/PmmhChain`), and such chains converge by the spectral argument in L2 of `Lemmas/Ergodic`; the marginal of the target is the posterior (C92, C93)"],
"C124":["as C123, with the record of `PMMHResult` (`Fit.recorded`)", "the record is the path of the chain (C71); correlations between iterations vanish in the limit (spectral argument), so the variance of the average does (`Lemmas/Averages`)"],
"C125":["`Model/Sequential` with the filter of `Model/PmmhFilter` in each slot; `Spec/Posterior`", "while nothing is updated the weight of a slot is the likelihood estimate of its own filter (C96); strong law of large numbers with pairwise independence, and unbiasedness of the estimate (C30) integrates the random numbers of the filter out (`Lemmas/ImportanceLaw`)"],
"C126":["`Model/Sequential`, `Model/Threshold`; `Spec/Efficiency`", "strong law for the weights and their squares, truncating when the mean square is infinite (`Lemmas/ImportanceLaw.averages_top`); invariant that the recorded values are those of the prefixes (`Lemmas/FirstUpdate`)"],
"C127":["`Model/GradientScore`: slices and broadcasting along the time dimension, after backward sampling (`Model/Smoothing`) of the recorded window; `Spec/CompleteData`", "position by position over the lists, with the times of the recorded states from C24; counterexample by the default settings"],
"C128":["`GradientScore.location`, `stepSize` on the priors of `Model/Prior`; gradients in `Spec/CompleteData`", "chain rule and uniqueness of derivatives; first-order expansion along the step for the direction"],
"C129":["`smoothFl`, `apfCorrect`, `sisrPredict`, `filterAll` as for C37 and C110/C112; specification `smoothingAvg` in `Spec/PathAverage` integrates over paths with Bayes' rule.", "The filter on paths (`Lemmas/Lifted`): running the modelled filter on particles that carry their history commutes with forgetting the history, its laws are again independent transitions, and its filter averages are smoothing averages; the bounds of C110/C112 transfer. The carried paths are the lineages of C37, so they are what `smoothFl` returns."],
"C130":["`smoothFfbs`, `ffbsLoop`, `filterAll`, `sisrPredict`, `sisrCorrect` as for C08, C30, C37; contracts of the samplers in `Spec/Mutual` (all particles independent), transition density with respect to any sigma-finite measure.", "The run as a random system of ancestors and values (`Lemmas/TrajectoryRun`, `TrajectoryLaw`); given the values, the ancestors have the law of the backward weights, so the simulated paths average conditionally to the ancestral paths (`TrajectoryBack`, `TrajectoryFfbs`), which C129 compares with the smoothing distribution; two simulated paths are conditionally independent, which leaves a variance of at most 1/N (`ffbs_core`)."],
"C131":["`target`, `modelLikelihood` as for C127; `smoothFfbs`, `batchFilter` as for C130. `Spec/Score` says what a model with a parameter is; the likelihood is `lik` of `Spec/Likelihood` integrated over the initial distribution.", "Fisher's identity (`Lemmas/Fisher`): with respect to the law of the path at the parameters of the run, the likelihood at other parameters is the integral of the exponential of the difference of joint log-densities, which is differentiated under the integral; its logarithmic derivative is the smoothing average of the derivative of the joint log-density. This function of the path is bounded, so C130 applies."],
"C132":["`Model/ParameterPosterior` on top of the sequential algorithms of `Model/Sequential`.", "As for C97: the entry is computed from the state after `_step`; where no new state is returned this is the state returned."],
"C133":["`gradient`: `initialize` and the call in `find_mode`, with nested maps over the batch shape, in the order in which the loop of lines 68-77 wraps them. Scalar states, observations and parameters.", "Unfolding of the nested maps; every call raises, or every call returns the derivative."],
"C134":["`Model/Pyro` on top of the filters, backward simulation and densities of `Model/GradientScore`.", "The recorded states are one step apart (C81), the slice picks the observed ones (C40), the paths run through the particles (C38); with every step observed the factor is the target of the gradient proposal without prior, so the gradient converges by C131. The negation computes the factor for fair coins."],
"C135":["`Model/PreWeight`: the proposal object with its two attributes, `get_pre_weight_func`, `set_model` of every class, `pre_weight`.", "Induction over the models set before: the function held is none or the one for the class. Negation with a bootstrap proposal used for two filters."],
"C136":["`Model/Context.applyFun` with `copyInto`, the expansion done by `copy_`.", "Induction over the parameters; the expansion is characterised entry by entry (`Spec.Expands`)."],
"C137":["The SISR loop of `Model/Particle` and `Model/Filter.filterAll`, randomness as in C109.", "The error is the sum over the steps of what a step changes in the aim of the particles (`aimed`); the change is small because averages given later observations depend on the present state only up to the factor (1-ε²)^k (`likAvg_split`). Root mean squares then add up to a geometric series (`initial_mse`)."],
"C138":["`Model/PredictPath`: `predictPath` propagates the particles of the state `num_steps` times (contract of stochproc's `sample_states`).", "`sampleStates_one`, `sampleStates_two`: laws of one and two paths by induction over the steps. `initial_joint` follows the likelihood, the last state and the generator of a run together; likelihood times weighted average has the right mean and a variance that grows by C²/min(threshold, N) only, since likelihood² times Σ weights² is bounded along every run."],
"C139":["`Model/Tensor`: tensors as shapes with values, with PyTorch's rules for broadcasting, `matmul`, `unsqueeze`, `squeeze`, `transpose`, `inverse` and batches of distributions; `findOptimalDensity` and `linearKernel` are the lines of the code on them.", "`Lemmas/Tensor`: what each operation reads at a batch index; `findOptimalDensity_reads` follows the code and ends in the kernel for one particle, to which C41 applies."],
"C140":["`Model/Tensor`: `linearPreWeight` is the code on tensors with shapes; `Dist.logProb` with the checks of PyTorch.", "`preWeightCov_reads` for the covariance in all cases; `linearPreWeight_scalar`, `linearPreWeight_vector` for the two good cases, error cases by the shapes."],
"C141":["`Model/TensorGaussian`: `filterMoments`, `predictiveDensityT`, `gaussianValues` are the code on tensors with shapes.", "`filterMoments_var`, `filterMoments_cov`, `predictive_scalar`, `predictive_vector`: what the moments read at a batch index; then the draw; error cases by the shapes."],
"C142":["`Model/TensorWeights`: `linearSampleAndWeight`, `weightWithKernel`, with `Dist.sample` and `Dist.logProb` on tensors.", "`DistReads`: mean and covariance of a batch of normal distributions; `findOptimalDensity_dist`, `DistReads.sample`, `DistReads.logProb`, `weightWithKernel_reads`, then C41 for each particle."],
"C143":["`Model/TensorWeights`: `gaussianLinearSampleAndWeight`, with `filterMoments`, `predictiveDensityT`, `findOptimalDensity` and `weightWithKernel` on tensors.", "`moments_reads` and `gaussianLinear_reads` read all parameters at the index of a particle; `kernel_is_conditional` is C41 with a variance instead of a scale."],
"C144":["`Model/TensorSmoothing`: `ffbsTensor`, `flTensor`, `batchedGather` with `gather`, `unsqueeze`, `moveaxis`, `expand`, `stack` on shapes and indices.", "Each operation reads its argument at the index of path and filter; induction over the recorded states."],
"C145":["Model/TensorPyro (spread, rest0, first0, mean0, pyroFactor), on the tensors of Model/Tensor and Model/TensorSmoothing", "sums over times and means over paths of tensors whose values are functions of time, path and batch index; broadcasting computed for every shape"],
"C146":["Model/TensorGradient: modelLikelihood with reshape on the order of entries in memory, total for backward with ones", "reshape_reads for all shapes; sums and means as in C145; the derivative of a sum over chains of which one depends on the parameter"],
"C147":["Model/TensorNested: nestedSampleAndWeight with softmax, moveaxis, Categorical, take_along_dim and squeeze on tensors", "takeAlong_ok: what take_along_dim reads after the added dimensions; then each line of the code at the index of a particle"],
"C148":["Model/TensorSisr: sisrPredict, normalizeT, maskedScatter by the order of entries in memory, indexing with masks", "cnt_mod, cnt_div_add: how many masked entries lie before a place in memory; scatter_entry, pick_batch, fill_batch at the index of a particle; the single filter with a mask without dimensions"],
"C149":["Model/TensorMove: logLikelihoodT, sisrCorrect, apfPredict, apfCorrect on tensors", "logLikelihoodT_ok: the subtracted maximum cancels, for every filter; gatherWeight_ok; C148_batch for the prediction; then each line of the code at the index of a particle"],
"C150":["Model/SharedIndex: index tensors as addresses of columns in storage; initialize, SISR, APF, GPF, resample, exchange", "invariant over the history: columns of their own once a tensor was made, one column before; order of the writes of the exchange"],
"C151":["Model/TensorResampling: systematicRows and systematicT on tensors with moveaxis, cumsum, searchsorted", "row_first: what searchsorted finds in a row; systematicRows_ok at the index of a particle; uniqueness of the first particle; C148 and C149 for the filters, C07 for the counts"],
"C152":["Model/TensorRun: createState, StepT.move, runT on tensors", "each step by C148 and C149 (or propagation), as a relation between the states of one filter; induction over the steps; the relations are functions once the random numbers are given, hence equality with the run alone"],
"C153":["Model/TensorGpf: gaussianSampleAndWeight, gpfPredict, gpfCorrect on tensors", "C141 at every index of the batch; logLikelihoodT_ok; induction over the steps as in C152; the move is a function of the state, hence equality with the run alone"],
"C154":["Model/TensorMoments: storedMomentsT, getCovarianceT on tensors with broadcasting", "filterMoments_var at every index of the batch; failure of broadcastShape; cube_ok: the lines of get_covariance when the three sizes are equal"],
"C155":["Model/TensorSisr, TensorMove, TensorGpf, TensorRun, TensorResampling on one side, Model/Particle, Bootstrap, Resampling on the other", "Spec/TwoModels states when tensors hold a state and when parts of a filter (resampler, proposal, pre-weight, transition) agree; Props/TwoModels proves the moves by the theorems on tensors (C147-C154), the run by induction over the observations, unbiasedness from C30/C31; systematic resampling by the smallest particle whose cumulated weight reaches the level"],
"C156":["Model/TensorResampling: multinomialRows, multinomialT; Model/TensorRun: gapsT, runEveryT; the filters on tensors as in C155", "C155_run_every turns the runs of C109-C112 into runs on tensors; the weighted average of a state that tensors hold is the one over the tensors; multinomial resampling row by row"],
"C157":["Model/TensorSmoothing (tensors) on one side, Model/Smoothing (functions of path, filter and component) on the other", "Spec/SmoothingModels states when tensors hold a recorded state and paths; C144 describes the paths on tensors, which are shown to be those of flLoop and ffbsLoop by induction over the history"],
"C158":["Model/Residuals: standardizeObs; transforms as pairs of functions", "Spec/Residuals composes the transforms; induction over the list of transforms; the law by measurability of both compositions"]
}
