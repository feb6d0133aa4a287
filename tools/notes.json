{
 "C05": {},
 "C07": {
  "note": "The two-sided bound with clipping is refuted.",
  "status": "proved"
 },
 "C100": {
  "note": "The uncovered gaps are proved for every number of buckets (C100_gap_false, C100_gap_untouched)."
 },
 "C102": {
  "note": "Experiment defined in Props/JackknifeCoverage.lean independently of the model: symmetric learner on multisets, leave-one-out and leave-fold-out models, the modelled functions called on their outputs. Exact real arithmetic. The CV+ bound assumes folds of equal size and m - 1 further exchangeable points, as i.i.d. data allow.",
  "status": "proved"
 },
 "C104": {
  "note": "The English expectation that sets consist of the most likely labels is refuted by C104_most_likely_false.",
  "status": "proved"
 },
 "C105": {
  "note": "The guarantee of CV+ is refuted by C105_cv_plus_false.",
  "status": "proved"
 },
 "C106": {
  "note": "Real arithmetic; the initialisers' samples are taken to be exactly the stated distributions and independent.",
  "status": "proved"
 },
 "C107": {
  "note": "The probit editor's scaling is an arbitrary function here (its value is C80); dropout keys are not modelled.",
  "status": "proved"
 },
 "C108": {
  "note": "The gradient is that of the full log density (one batch holding all data); preconditioners other than the identity and varying step sizes are not covered here (C38, C39 hold of them).",
  "status": "proved"
 },
 "C109": {
  "note": "Posterior samples with different keys are assumed independent with the posterior's law and the keys of one split different; exact arithmetic, moments as required.",
  "status": "proved"
 },
 "C110": {
  "note": "Exact arithmetic; the log-joint is that of all the data in one batch; the noise of different entries is independent. The diagonal entries of the Hessian come from an exact eigendecomposition."
 },
 "C111": {
  "note": "One coordinate at a time; the gradient is that of the exact log density (no minibatch noise).",
  "status": "proved"
 },
 "C112": {
  "note": "One input at a time, in exact arithmetic; the loss of a data set is the mean over its rows (C54, C44).",
  "status": "proved"
 },
 "C113": {
  "note": "The bins depend on n (the first edge is 1/n), so the calibration error of the population is taken over the bins of that n.",
  "status": "proved"
 },
 "C114": {
  "note": "Exchangeable samples are assumed in C114_quantile to C114_nominal_false; C114_draws derives this for independent samples. Existence of a target's tie with a sample only matters for the upper bounds.",
  "status": "proved"
 },
 "C115": {
  "note": "Stein's identity is proved by integration by parts along each coordinate with Mathlib's Bochner integral; real arithmetic. Whether gap vanishes only for the target is not claimed.",
  "status": "proved"
 },
 "C116": {
  "note": "Real arithmetic; the Cholesky factor and the triangular solve enter by their contracts (IsChol, Solves) as in C78. The distribution is that of the linear layer's weights with features held fixed.",
  "status": "proved"
 },
 "C119": {
  "note": "The transformers library (`from_pretrained` and `save_pretrained` of its base class, `create_position_ids_from_input_ids`) by its contract; the networks themselves are not modelled.",
  "status": "proved"
 },
 "C120": {
  "note": "Labels in range; exact arithmetic; the loss of C54 on the scaled logits of C69, its derivative computed from the formula.",
  "status": "proved"
 },
 "C121": {
  "note": "The gradient is the derivative of the batched log-joint of C51. Independent batches are an assumption of the last part: a loader that shuffles draws without replacement within an epoch; every such order is covered by the parts that hold for given batches.",
  "status": "proved"
 },
 "C122": {
  "note": "Exact arithmetic; the sampled models are the ones drawn with the keys of one call. What does not follow from averaging is shown by concrete pairs of models.",
  "status": "proved"
 },
 "C123": {
  "note": "Exact arithmetic: jnp.linalg.pinv is any function meeting the Penrose conditions on symmetric matrices (shown to exist), without its cutoff of small singular values; multivariate_normal.logpdf is the Gaussian log-density, NaN when the covariance is not positive definite.",
  "status": "proved"
 },
 "C124": {
  "note": "Exact arithmetic; the rows are independent draws (stated as a hypothesis), the precision reached on the calibration data is the one reported by true_positive_precision / true_negative_precision.",
  "status": "proved"
 },
 "C125": {
  "note": "Exact real arithmetic; eps is the constant under the square root of _l2_normalize, and the first product with the stored vector must be at least sqrt(eps) (times the length of the stored vector if that is more than 1). The kernel is held fixed during the iterations.",
  "status": "proved"
 },
 "C126": {
  "note": "Dropout is the identity (outside training). Residual layers of equal width (other widths are refused or broadcast, C90). The spectral norms of the kernels are hypotheses here; C79 and C125 say when normalisation provides them.",
  "status": "proved"
 },
 "C127": {
  "note": "One image at a time, no bias, exact real arithmetic. Contract: nn.Conv is the cross-correlation of the zero padded image and SAME puts the smaller half of the padding first.",
  "status": "proved"
 },
 "C128": {
  "note": "Exact real arithmetic; scores in [0,1]; the cells must be measurable sets. Rows applied in one batch with others can get another patch (C57).",
  "status": "proved"
 },
 "C129": {
  "note": "Uniform over all lists of patches the code can make, so early stopping and the choice of cells by the data do not matter. C129_uniform, _calibrated, _groups, _new_row, _patched; C129_converged_false refutes that convergence means coverage.",
  "status": "proved"
 },
 "C130": {
  "note": "The drawing library itself is not modelled."
 },
 "C131": {
  "note": "The AWS session, profiler and the job itself are not modelled."
 },
 "C132": {
  "note": "Names and exceptions only (values are C94); MAP trainer; metrics are assumed not to raise."
 },
 "C136": {
  "note": "the calibration rows are arbitrary but fixed, i.e. the statement is conditional on the calibration part of the random split; the discarded last round is not covered",
  "status": "proved"
 },
 "C137": {
  "note": "Exact arithmetic; the predictions of the fitted models are given functions of the input. The counterpart for the first intervals, from out-of-bag residuals of training data, is not claimed: those residuals depend on the models.",
  "status": "proved"
 },
 "C138": {
  "note": "Exact arithmetic; full-batch gradients; identity preconditioner. The limits are taken in the order: number of cycles, initial step size, cycle length.",
  "status": "proved"
 },
 "C139": {
  "note": "Exact arithmetic. `optax.sgd` is its documented update; gradients by jax are the derivatives. Batches are drawn in any fixed order.",
  "status": "proved"
 },
 "C140": {
  "note": "Exact arithmetic; identity preconditioner and no momentum. The distance from the mode is for full-batch gradients.",
  "status": "proved"
 },
 "C141": {
  "note": "Exact arithmetic. `optax.sgd` with a schedule is its documented update; gradients by jax are the derivatives.",
  "status": "proved"
 },
 "C142": {
  "note": "Tokenizer, `tokenizer.pad` and `datasets.map` by their documented contracts; padding on the right.",
  "status": "proved"
 },
 "C143": {
  "note": "Characters whose upper or lower case is more than one character are not modelled; spaces are the ASCII ones.",
  "status": "proved"
 },
 "C144": {
  "note": "Noise and gradients as real numbers; noise of different keys is independent by assumption.",
  "status": "proved"
 },
 "C145": {
  "note": "Noise and gradients as real numbers; noise independent of the sample by assumption. That kept distributions differ from the posterior is shown for running_average_factor = 0, the first-order bias for all factors below 1.",
  "status": "proved"
 },
 "C146": {
  "note": "Network parameters fixed, evaluation outside training (row by row); real arithmetic; keyword arguments beyond those named are not passed."
 },
 "C150": {
  "note": "Only the limits of mean and variance, not of the law, are proved for random batches (the centres of the batches need not be normal). Batches drawn independently: the loader shuffles without replacement, for which only the fixed-order and given-batches statements apply.",
  "status": "proved"
 },
 "C151": {
  "note": "numpy's generators are a contract: a generator made from a seed draws the same permutation whenever it is made.",
  "status": "proved"
 },
 "C152": {
  "note": "That a loader reshuffles uniformly and independently is a hypothesis (about torch or numpy); the default array loaders do not (C151)."
 },
 "C153": {
  "note": "The predictive methods are compared on the ensemble used for calibration (its posterior samples stand for those the predictive would draw). Several devices are not treated here (C85)."
 },
 "C154": {
  "note": "That the truncated estimate converges to the documented quantity as the chain grows is not treated. jnp.fft is taken to be the exact discrete Fourier transform."
 },
 "C155": {
  "note": "The loss is integrated over the base draws; the law of the base draws is a hypothesis (C76 fixes the pushed-forward draws and their density). Convergence of the optimiser is not stated."
 },
 "C156": {
  "note": "The training points are independent draws from one distribution (a hypothesis); errors are those of exact averages over the approximate posterior, not of finitely many samples."
 },
 "C157": {
  "note": "The monitored value is the average over the validation rows, as it is for a row-averaging metric and batches of equal size (C94); validation rows are independent of each other and fixed apart from the training data and the start (hypotheses)."
 },
 "C30": {},
 "C36": {
  "note": "The exploration ratio is assumed positive where phases are compared."
 },
 "C37": {
  "note": "Real arithmetic. C37_burnin_zero_false, C37_cycle_start_false: corners where the expectation fails."
 },
 "C40": {
  "note": "False corners proved separately: rank 1 keeps every column (C40_rank_one_false), several updates per epoch do not average (C40_mean_per_step_false)."
 },
 "C41": {
  "note": "Free-key model of jax.random.split. C41_split_collision_false: splitting a returned key reproduces the next key."
 },
 "C43": {},
 "C45": {
  "note": "variance(rng=...) splits the key before each part, so the two parts use different samples: C45_variance_rng_false gives a Bernoulli variance of 1/2."
 },
 "C47": {
  "note": "False at error=0, where the set falls back to one label (C47_zero_false); the theorem is for 0 < error <= 1."
 },
 "C50": {
  "note": "The row-wise statistic and the ensemble loops; sample() is C65."
 },
 "C51": {
  "note": "Equal batches (C51_epoch), any batches weighted by size (C51_size_weighted). C51_ragged_false: with a smaller last batch the plain epoch mean differs.",
  "status": "proved"
 },
 "C52": {
  "note": "The search for the temperature (scipy brute with its final local search) is not modelled: the theorems hold for every temperature it may return, positive ones unless stated. C52_negative_false is the negative-temperature corner.",
  "status": "proved"
 },
 "C53": {
  "note": "Exact arithmetic: underflow of the kernel weights to zero (0/0) is the only NaN source not covered besides constant targets, which C53_constant_false records.",
  "status": "proved"
 },
 "C54": {
  "note": "Labels in range; real arithmetic.",
  "status": "proved"
 },
 "C55": {
  "note": "Language model, tokenizer (right padding) and clustering are external and arbitrary. C55_padding_false and C55_soft_false are the corners where the expectation fails.",
  "status": "proved"
 },
 "C63": {
  "note": "States are a class tag with attributes; checkpoint storage is the disk model of C34."
 },
 "C65": {
  "note": "The random numbers are an arbitrary function of sample and row within the batch."
 },
 "C66": {
  "note": "False corners proved separately: out-of-range labels get positive probability (C66_out_of_range_false), the masked layer is not a distribution (C66_masked_distribution_false), std returns given variances unrooted (C66_std_variances_false).",
  "status": "proved"
 },
 "C68": {
  "note": "C68_single_false: with a single parameter a vector of log-variances is broadcast instead of refused.",
  "status": "proved"
 },
 "C70": {
  "note": "Proved with a calibration manager present and calibrator state as initialised. Failures proved separately: default return_aux of the negative log joint, unknown names, no manager, and calibrator state fed back (C70_*_false).",
  "status": "proved"
 },
 "C71": {
  "note": "Regression models with state do not work (C71_regression_state_false).",
  "status": "proved"
 },
 "C72": {
  "note": "The pseudo-inverse is external: any positive semidefinite matrix.",
  "status": "proved"
 },
 "C73": {
  "note": "The Gaussian log-density is external; infinite log-densities (clipped by nan_to_num) are not modelled.",
  "status": "proved"
 },
 "C74": {
  "note": "Derivatives are characterised (second derivative along every line), eigh is a contract (H = z diag(lam) z^T)."
 },
 "C75": {
  "note": "Training itself is abstract: only the choice and construction of the starting state, and saving/loading, are modelled."
 },
 "C76": {
  "note": "Noise is an argument; ravel_pytree is a contract (sorted keys at every level, tuples in order)."
 },
 "C77": {
  "note": "Moments are with respect to an arbitrary probability measure with the required integrability."
 },
 "C78": {
  "note": "The feature extractor is an arbitrary function. Cholesky and triangular solve are contracts (any lower factor, any solution); solutions are proved to exist."
 },
 "C79": {
  "note": "Real arithmetic; the kernel as a matrix."
 },
 "C80": {
  "note": "The Jacobians are arguments (automatic differentiation is trusted)."
 },
 "C81": {
  "note": "Real arithmetic; the fast Fourier transform is replaced by the circular autocorrelation it computes."
 },
 "C82": {
  "note": "The tokenizer and its padding are arbitrary functions; random draws are arbitrary bits."
 },
 "C83": {
  "note": "optax.linear_schedule and join_schedules are contracts. Real or rational arithmetic."
 },
 "C84": {
  "note": "Comparison and hash of attribute values are arguments."
 },
 "C85": {
  "note": "Optimizer, loss gradient and calibrator are arguments. flax checkpoints and early stopping as in C31/C62. The device theorem takes the loss as an average over rows that uses no random key."
 },
 "C86": {
  "note": "flax serialisation (tuples become dictionaries with keys \"0\",\"1\",..., order kept on disk) and key sorting of jax are modelled contracts. Class-specific fields of posterior states are left out; accumulation, clipping and overflow are in C32/C61/C83."
 },
 "C87": {
  "note": "Differentiation and optimizer are arguments. Checkpoints, metrics, callbacks and early stopping of the trainer are those of C31/C62; several devices C85."
 },
 "C88": {
  "note": "pmap and lax.pmean are modelled as running every device on its rows and averaging. Gradients, optimizer and floating-point rounding are arguments of the model or left out."
 },
 "C89": {
  "note": "The calibrator run itself is C85, posterior fitting is an argument. The final dump to disk and auxiliary outputs of the objective are left out; exceptions while updating the repository are in C33."
 },
 "C90": {
  "note": "Dense layers are modelled with their weights; convolutions, pooling and batch norm by the shapes they give (flax documentation). Activations of convolutional networks are recorded as the list of functions used."
 },
 "C91": {
  "note": "Random numbers and the permutation are arguments. Multiplicative patches in batch MVP are refused even when the loop would compute no patch."
 },
 "C92": {
  "note": "Each algorithm of InputsLoader and TargetsLoader is modelled once (the code is the same with the names exchanged). Inputs that are dictionaries of arrays and passes abandoned in the middle are not modelled. The targets statements assume that every batch holds as many inputs as targets."
 },
 "C93": {
  "note": "The draw of the slot (jax.random.choice) is an argument; unbiasedness is stated as an average over all equally likely draws."
 },
 "C94": {
  "note": "Uncertainties passed to metrics are part of the predictions here. The exception of multi-device ADVI rests on jax's contract for the function returned by ravel_pytree (split along the first axis, then reshape)."
 },
 "C95": {
  "note": "Exact arithmetic. The rate is for additive patches of the one-dimensional and the top-label multicalibrator; the statement about the validation loss is for every method whose recorded losses are numbers."
 },
 "C99": {
  "note": "Language model, reduction, clustering models and standard deviation are arbitrary functions; exact arithmetic; as many targets as texts."
 }
}