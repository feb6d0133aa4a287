{"id": "C01", "title": "Conformal set extraction is exact", "statement": "SplitConformalClassifier.conformal_set returns exactly one set per test row, in row order, and set i contains label j (each once, ascending) if and only if fewer than (1-error)(n+1) validation scores are strictly greater than test_scores[i][j]; grouping rows by set size before scattering never loses, duplicates or moves a label.", "quantifier": "all validation score lists, all rectangular test score matrices, all error levels", "why_tests_cant": "The grouping-by-size scatter has different code paths for each pattern of set sizes (including empty sets); tests only see a few patterns.", "anchors": ["fortuna/conformal/classification/base.py::ConformalClassifier._get_conformal_sets_from_scores", "fortuna/conformal/classification/base.py::SplitConformalClassifier.conformal_set"]}
{"id": "C02", "title": "Conformal sets are nested in the error level", "statement": "If error1 <= error2, then for the same scores every label in the set returned for error2 is also in the set returned for error1; at error 1 every set is empty and at error 0 every set is the full label set.", "quantifier": "all score lists, all pairs of error levels in [0,1]", "why_tests_cant": "Monotonicity over a continuum of error levels and all inputs cannot be sampled.", "anchors": ["fortuna/conformal/classification/base.py::ConformalClassifier._get_conformal_sets_from_scores"]}
{"id": "C03", "title": "Finite-sample coverage of split conformal classification", "statement": "For any n+1 exchangeable conformity scores, the probability that the held-out point's label is in the set built from the other n scores is at least 1-error: for any n+1 scores, at least (1-error)(n+1) of the leave-one-out choices are covered, and under any exchangeable law the coverage probability is at least 1-error.", "quantifier": "all n, all score vectors (with ties), all error levels in [0,1], every exchangeable probability law", "why_tests_cant": "A probability bound over every distribution; a simulated coverage test only checks one distribution up to noise.", "anchors": ["fortuna/conformal/classification/base.py::ConformalClassifier._get_conformal_sets_from_scores"]}
{"id": "C04", "title": "Conformal sets are ordered by score", "statement": "If a label is in a conformal set, every label with a larger score for the same row is in the set too. (Users expect the converse for the probability-based score: that the most likely labels enter first. With score 1-prob the code includes the least likely labels first, so the expected form is false.)", "quantifier": "all score lists, rows, error levels", "why_tests_cant": "Closure property over all inputs; the inverted direction is not visible in tests that only check coverage or set shape.", "anchors": ["fortuna/conformal/classification/base.py::ConformalClassifier._get_conformal_sets_from_scores", "fortuna/conformal/classification/simple_prediction.py"]}
{"id": "C05", "title": "What CV+ classification returns", "statement": "CVPlusConformalClassifier.conformal_set returns, for every fold and every test input, the set of labels whose score in that fold passes the threshold given by the validation scores of all folds, at position fold * inputs + input. Hence the number of sets is the number of test inputs exactly if there is one fold. False as documented: one set per test input.", "quantifier": "all numbers of folds, all fold scores", "why_tests_cant": "The number of folds is unbounded and the failing multiplicity is masked whenever a test only inspects the element type.", "anchors": ["fortuna/conformal/classification/base.py::CVPlusConformalClassifier.conformal_set"]}
{"id": "C06", "title": "Adaptive conformal error stays a probability and moves the right way", "statement": "AdaptiveConformalClassifier/Regressor.update_error always returns a value in [0,1]; without weights it never decreases the error when the target was covered and never increases it when it was missed (for target_error in [0,1]); and it raises for a non-positive step size, for weights that are not an ascending probability vector, and when only one of weights/were_in is given.", "quantifier": "all feedback histories, step sizes, target errors, weights", "why_tests_cant": "Online histories are unbounded; an invariant over all of them cannot be enumerated.", "anchors": ["fortuna/conformal/classification/adaptive_conformal_classifier.py::AdaptiveConformalClassifier.update_error", "fortuna/conformal/regression/adaptive_conformal_regressor.py::AdaptiveConformalRegressor.update_error"]}
{"id": "C07", "title": "Long-run miscoverage of adaptive conformal updates", "statement": "Running update_error over any sequence of T outcomes, as long as clipping at 0 and 1 never triggers, the number of misses is exactly T*target_error + (e_0 - e_T)/gamma, so that the average miscoverage differs from target_error by at most 1/(gamma*T). With clipping at 1 only, misses are at most T*target_error + e_0/gamma; with clipping at 0 only, they are at least T*target_error - (1 - e_0)/gamma. With clipping at both ends no such bound holds.", "quantifier": "all T, all outcome sequences (even adversarial), all gamma>0", "why_tests_cant": "Statement about every infinite adversarial sequence.", "anchors": ["fortuna/conformal/classification/adaptive_conformal_classifier.py::AdaptiveConformalClassifier.update_error", "fortuna/conformal/regression/adaptive_conformal_regressor.py::AdaptiveConformalRegressor.update_error"]}
{"id": "C08", "title": "Max-coverage fixed-precision calibration is sound and optimal on its grid", "statement": "If calibrate finds a scale with positive objective, then applying the returned scale to the calibration probabilities yields precision at least threshold+margin among probabilities above the threshold, with maximal coverage over the searched grid; if no grid point qualifies (and the grid has at least two points), the returned scale is 1 and apply_patches leaves probabilities unchanged; with no positive tau the patched probabilities stay in [0,1]. The reported coverages are the fractions of rows at least and at most the threshold, exceeding one together by the fraction at the threshold. Patches are fitted exactly if both precision thresholds exceed one half and the grid is not empty; otherwise a ValueError is raised.", "quantifier": "all probability/target arrays, thresholds, margins, grid sizes", "why_tests_cant": "Optimality is a quantification over the whole grid and all data sets.", "anchors": ["fortuna/conformal/classification/maxcovfixprec_binary_classfication.py::MaxCoverageFixedPrecisionBinaryClassificationCalibrator.calibrate", "fortuna/conformal/classification/maxcovfixprec_binary_classfication.py::MaxCoverageFixedPrecisionBinaryClassificationCalibrator.apply_patches"]}
{"id": "C09", "title": "Interval membership equals score threshold", "statement": "For QuantileConformalRegressor and OneDimensionalUncertaintyConformalRegressor, a target lies in the returned interval if and only if its conformity score is at most the returned calibration quantile (uncertainties positive), and is_in reports exactly that.", "quantifier": "all bounds/predictions/uncertainties, all targets, all quantile values", "why_tests_cant": "Equivalence of two computations for every real input.", "anchors": ["fortuna/conformal/regression/quantile.py::QuantileConformalRegressor.conformal_interval", "fortuna/conformal/regression/quantile.py::QuantileConformalRegressor.score", "fortuna/conformal/regression/onedim_uncertainty.py::OneDimensionalUncertaintyConformalRegressor.conformal_interval", "fortuna/conformal/regression/onedim_uncertainty.py::OneDimensionalUncertaintyConformalRegressor.score", "fortuna/conformal/regression/base.py::ConformalRegressor.is_in"]}
{"id": "C10", "title": "Finite-sample coverage of conformalised intervals", "statement": "For any n+1 scores and error >= 1/(n+1), at least (1-error)(n+1) of the points are covered when each is held out and the interval is calibrated on the other n. So for any model and exchangeable data of n calibration points and a test point, the interval of QuantileConformalRegressor or OneDimensionalUncertaintyConformalRegressor contains the test target, according to is_in, with probability at least 1-error; if no two scores are equal, with probability at most (ceil((n+1)(1-error))+1)/(n+1). (For error < 1/(n+1) the quantile level exceeds 1 and is clamped, and the guarantee fails.) False of the code: the usual bound 1-error+1/(n+1) from above; because the quantile is interpolated, the larger bound is attained for every n and error with 1 <= ceil((n+1)(1-error)) < n.", "quantifier": "all n>=1, all score vectors, all error levels in [0,1]; all models (measurable) and exchangeable laws", "why_tests_cant": "A distribution-free guarantee.", "anchors": ["fortuna/conformal/regression/quantile.py::QuantileConformalRegressor.quantile", "fortuna/conformal/regression/onedim_uncertainty.py::OneDimensionalUncertaintyConformalRegressor.quantile"]}
{"id": "C11", "title": "Conformal intervals are nested in the error level", "statement": "For the quantile and one-dimensional-uncertainty regressors (uncertainties non-negative), jackknife-minmax, jackknife+ and CV+, lowering the error level can only widen the returned interval: the interval for the larger error is contained in the one for the smaller error.", "quantifier": "all inputs, all pairs of error levels in [0,1]", "why_tests_cant": "Monotonicity over a continuum.", "anchors": ["fortuna/conformal/regression/quantile.py::QuantileConformalRegressor.conformal_interval", "fortuna/conformal/regression/onedim_uncertainty.py::OneDimensionalUncertaintyConformalRegressor.conformal_interval", "fortuna/conformal/regression/jackknife_minmax.py::JackknifeMinmaxConformalRegressor.conformal_interval", "fortuna/conformal/regression/jackknifeplus.py::JackknifePlusConformalRegressor.conformal_interval", "fortuna/conformal/regression/cvplus.py::CVPlusConformalRegressor.conformal_interval"]}
{"id": "C12", "title": "Jackknife intervals are proper and ordered", "statement": "Jackknife+ and CV+ return lower <= upper for every error <= 1/2, jackknife-minmax contains the jackknife+ interval for the same inputs at every error, and jackknife-minmax is proper (lower<=upper) for every error. (Jackknife+ intervals can be inverted, lower > upper, for error > 1/2.) On at least one left-out point, with as many outputs as targets and every model evaluated at the same m >= 1 test inputs, each method returns m intervals: jackknife+ and CV+ the error and 1-error quantiles of prediction minus and plus residual, jackknife-minmax the least prediction minus, and the greatest plus, the 1-error quantile of the residuals. Outputs and targets of different number raise a ValueError. False of the code: with no test inputs (m = 0) no intervals are returned; all three methods raise a ValueError instead.", "quantifier": "all leave-one-out predictions, all targets, all error levels", "why_tests_cant": "Containment must hold for all inputs; inverted intervals occur only in part of the input space.", "anchors": ["fortuna/conformal/regression/jackknifeplus.py::JackknifePlusConformalRegressor.conformal_interval", "fortuna/conformal/regression/jackknife_minmax.py::JackknifeMinmaxConformalRegressor.conformal_interval", "fortuna/conformal/regression/cvplus.py::CVPlusConformalRegressor.conformal_interval"]}
{"id": "C13", "title": "CV+ with singleton folds is jackknife+", "statement": "CVPlusConformalRegressor on n ≥ 1 folds of one point each returns exactly the JackknifePlus interval on the same leave-one-out predictions, and the CV+ result does not depend on the order in which folds (or points within a fold) are passed.", "quantifier": "all n ≥ 1, all predictions/targets, all permutations", "why_tests_cant": "Equality of two implementations over all inputs.", "anchors": ["fortuna/conformal/regression/cvplus.py::CVPlusConformalRegressor.conformal_interval", "fortuna/conformal/regression/jackknifeplus.py::JackknifePlusConformalRegressor.conformal_interval"]}
{"id": "C14", "title": "EnbPI residual window is a sliding window", "statement": "After any sequence of online updates through conformal_interval_from_residuals, the stored residuals are exactly the most recent n entries (n = initial length) of the initial residuals followed by all new absolute residuals; the window length never changes and all residuals stay non-negative.", "quantifier": "all histories of updates", "why_tests_cant": "Unbounded histories.", "anchors": ["fortuna/conformal/regression/enbpi.py::EnbPI.conformal_interval_from_residuals"]}
{"id": "C15", "title": "EnbPI uses only out-of-bag models and returns proper intervals", "statement": "In EnbPI.conformal_interval the residual of a training point is the distance of its target to the aggregate of the predictions of the bootstraps that do not contain it, or the size of the target if every bootstrap contains it, so it depends on no other prediction; the aggregated test predictions are formed in the same way, with zero if every bootstrap contains the point. All residuals are non-negative, and each interval has lower <= upper with identical width for all test points.", "quantifier": "all bootstrap index matrices, predictions, targets, error levels", "why_tests_cant": "Non-interference over all inputs.", "anchors": ["fortuna/conformal/regression/enbpi.py::EnbPI.conformal_interval"]}
{"id": "C16", "title": "Multicalibrated values remain probabilities", "statement": "Every value returned by calibrate or apply_patches of the iterative multivalid methods lies in [0,1] whenever the inputs do, for any list of stored patches and any schedule of rounds.", "quantifier": "all patch lists, groups, values, rounds, additive and multiplicative patches", "why_tests_cant": "Invariant over unbounded rounds.", "anchors": ["fortuna/conformal/multivalid/iterative/base.py::IterativeMultivalidMethod.calibrate", "fortuna/conformal/multivalid/iterative/base.py::IterativeMultivalidMethod.apply_patches", "fortuna/conformal/multivalid/iterative/base.py::IterativeMultivalidMethod._patch"]}
{"id": "C17", "title": "Stored patches replay to the calibrated values", "statement": "After calibrate, calling apply_patches on the calibration data reproduces exactly the values reached by the last accepted round; the number of patches equals the reported n_rounds and never exceeds the requested maximum, and the loss of the replayed values is never larger than the loss of the initial values (losses of accepted rounds are non-increasing). A last round that is not stored is reported as convergence (last loss within atol, or relative decrease within rtol) unless its patch raised the loss on the calibration or on the validation part.", "quantifier": "all data sets, all round limits, all tolerances", "why_tests_cant": "Agreement between two code paths along all executions of a data-dependent loop.", "anchors": ["fortuna/conformal/multivalid/iterative/base.py::IterativeMultivalidMethod.calibrate", "fortuna/conformal/multivalid/iterative/base.py::IterativeMultivalidMethod.apply_patches"]}
{"id": "C18", "title": "Applying patches is row-wise", "statement": "apply_patches treats every row independently: the result for a row depends only on that row's value and group membership, so permuting, sub-setting or concatenating the input batch permutes, subsets or concatenates the output; with no patches the output equals the input.", "quantifier": "all batches, all permutations, all patch lists", "why_tests_cant": "Equivariance over all batches.", "anchors": ["fortuna/conformal/multivalid/iterative/base.py::IterativeMultivalidMethod.apply_patches", "fortuna/conformal/multivalid/iterative/base.py::IterativeMultivalidMethod._get_b", "fortuna/conformal/multivalid/iterative/base.py::IterativeMultivalidMethod._patch"]}
{"id": "C19", "title": "A multicalibration patch lowers the squared error", "statement": "The multicalibrator's additive patch on a (group, bucket) cell, applied with step eta in [0,1] to the calibration data, never increases the mean squared error, decreases it by exactly eta(2-eta)*P(cell)*patch^2 before clipping, and with eta=1 makes the cell's mean value equal to the cell's mean target. A multiplicative patch is undefined exactly for a cell that is empty or has mean value zero, otherwise it is mean score over mean value, and a full unclipped multiplicative step also makes the cell mean-calibrated. The top-label loss is the mean squared error over rows and classes. False of the code: for one-dimensional values mean_squared_error is the sum of squared errors, not their mean.", "quantifier": "all data sets, all cells, all eta in [0,1]", "why_tests_cant": "Progress argument for all data.", "anchors": ["fortuna/conformal/multivalid/iterative/multicalibrator.py::Multicalibrator._get_patch", "fortuna/conformal/multivalid/iterative/multicalibrator.py::Multicalibrator._calibration_error", "fortuna/conformal/multivalid/iterative/base.py::IterativeMultivalidMethod._patch"]}
{"id": "C20", "title": "The worst cell is patched and the converged flag is truthful", "statement": "The (group, bucket, bucket type) cell chosen for patching attains the maximum of the calibration error weighted by cell probability over the whole grid; the converged flag is set exactly when the last recorded loss is at most atol or its relative decrease is at most rtol. (That convergence implies small calibration error in every cell is false and refuted.)", "quantifier": "all grids of groups, buckets, bucket types", "why_tests_cant": "Quantifies over every cell and every data set.", "anchors": ["fortuna/conformal/multivalid/iterative/base.py::IterativeMultivalidMethod.calibrate"]}
{"id": "C21", "title": "Batching loses nothing", "statement": "A loader built from array data without shuffling yields batches whose concatenation is the original data in order, every batch has exactly batch_size rows except possibly the last, no batch is empty unless the data are, and input/target rows stay paired; with shuffling the yielded rows are a permutation of the data with pairs intact.", "quantifier": "all data sizes, batch sizes >= 1, permutations", "why_tests_cant": "All sizes and remainders.", "anchors": ["fortuna/data/loader/utils.py::IterableData.from_array_data", "fortuna/data/loader/utils.py::IterableData.from_batch_array_data", "fortuna/data/loader/array_loaders.py::DataLoader.from_array_data"]}
{"id": "C22", "title": "Chop keeps exactly divisible prefixes", "statement": "chop(divisor) yields only batches whose size is a multiple of divisor, each a prefix of the corresponding original batch with fewer than divisor rows removed, and omits exactly the non-empty batches smaller than divisor; chopping twice is chopping once; the inputs-only loader behaves the same.", "quantifier": "all batch sequences, divisors >= 1", "why_tests_cant": "All sizes.", "anchors": ["fortuna/data/loader/array_loaders.py::DataLoader.chop"]}
{"id": "C23", "title": "Split partitions the stream", "statement": "split(n_data) returns two loaders whose rows concatenated give the original rows in order; the first holds exactly min(n_data, total) rows.", "quantifier": "all batch sequences (ragged too), all n_data", "why_tests_cant": "All ragged batch boundaries.", "anchors": ["fortuna/data/loader/array_loaders.py::DataLoader.split"]}
{"id": "C24", "title": "Sample returns exactly the requested number", "statement": "When sample(seed, n_samples) finishes it has returned exactly n_samples rows, all taken from the loader's data with input/target pairs intact and no empty batch, for n_samples larger or smaller than the data; it finishes within n_samples+1 passes whenever each draw selects a row; it never finishes on an empty loader. (It samples with replacement across passes.)", "quantifier": "all loaders with data, all n_samples, all random choices", "why_tests_cant": "Termination and exact count for every size and random outcome.", "anchors": ["fortuna/data/loader/array_loaders.py::DataLoader.sample"]}
{"id": "C25", "title": "Concatenating and interposing loaders", "statement": "inputs_loaders_to_batch_iterable with 'concatenate' yields all rows of every loader in order with the label of its loader; with 'interpose' it yields exactly the same labelled rows up to order, for loaders of different lengths; any other mode raises; a stateless row-wise transform_data_loader maps every pair and loses none.", "quantifier": "all lists of loaders of unequal lengths", "why_tests_cant": "Unequal loader lengths give unboundedly many interleavings.", "anchors": ["fortuna/data/loader/utils.py::inputs_loaders_to_batch_iterable", "fortuna/data/loader/base.py::ConcatenatedLoader"]}
{"id": "C26", "title": "Device sharding round trip", "statement": "DeviceDimensionAugmentedLoader reshapes each batch to (n_devices, size/n_devices, ...) and raises if not divisible; un-sharding the result of a per-row function equals applying the function to the unsharded batch in the original order.", "quantifier": "all batch sizes, device counts >= 1, all per-row functions", "why_tests_cant": "All sizes and device counts.", "anchors": ["fortuna/data/loader/base.py::DeviceDimensionAugmentedLoader", "fortuna/likelihood/base.py::Likelihood._unshard_array", "fortuna/likelihood/base.py::Likelihood._loop_fun_through_data_loader", "fortuna/prob_model/predictive/base.py::Predictive._unshard_ensemble_arrays"]}
{"id": "C27", "title": "Nested dictionary lens laws", "statement": "nested_set then nested_get at the same path returns the value set; nested_set leaves every path that is neither a prefix nor an extension unchanged; setting what was already there changes nothing; missing paths raise unless allowed.", "quantifier": "all trees, all non-empty paths and path lists", "why_tests_cant": "All tree shapes.", "anchors": ["fortuna/utils/nested_dicts.py::nested_get", "fortuna/utils/nested_dicts.py::nested_set"]}
{"id": "C28", "title": "nested_pair/nested_unpair round trip", "statement": "Unpairing a paired nested dictionary at the same pairwise non-overlapping key paths returns the original dictionary and a second one holding exactly the paired objects at those paths and nothing elsewhere. (With overlapping paths the round trip fails.)", "quantifier": "all trees, all path lists, all labels", "why_tests_cant": "All tree shapes.", "anchors": ["fortuna/utils/nested_dicts.py::nested_pair", "fortuna/utils/nested_dicts.py::nested_unpair"]}
{"id": "C29", "title": "Frozen parameters never change in training", "statement": "Splitting parameters into trainable and frozen and merging them back is the identity, and after any number of training steps every frozen leaf is bit-identical to its initial value, whatever the gradients. The optimizer's state is initialised from exactly the trainable parameters, so that it fits them in every step; a label other than 'trainable' and 'frozen' is refused before training.", "quantifier": "all parameter trees, freeze functions, gradient sequences, optimizers on the trainable part", "why_tests_cant": "All gradient histories.", "anchors": ["fortuna/utils/freeze.py::freeze_optimizer", "fortuna/training/trainer.py::TrainerABC.on_train_start", "fortuna/training/trainer.py::TrainerABC._get_all_params", "fortuna/utils/freeze.py::get_paths_with_label", "fortuna/prob_model/posterior/base.py::Posterior._freeze_optimizer_in_state"]}
{"id": "C30", "title": "Encoding key paths into numbers is invertible up to ten", "statement": "Decoding an encoded selection of key paths gives the same paths, up to their order and the order of the components in each path; the order is kept for up to ten paths of up to ten components, and for pairwise different paths only then. False: the round trip for eleven or more paths.", "quantifier": "all tuples of lists of strings", "why_tests_cant": "All lengths.", "anchors": ["fortuna/utils/strings.py::encode_tuple_of_lists_of_strings_to_numpy", "fortuna/utils/strings.py::decode_encoded_tuple_of_lists_of_strings_to_array"]}
{"id": "C31", "title": "Early stopping fires exactly after patience is exhausted", "statement": "With patience p>0 and minimum delta d, training is told to stop at the first epoch at which p+1 consecutive validation metrics fail to improve on the best metric so far by more than d, never earlier, in both min and max modes; with patience None or <= 0 it never stops.", "quantifier": "all metric sequences, p, d, both modes", "why_tests_cant": "All metric histories.", "anchors": ["fortuna/training/mixin.py::WithEarlyStoppingMixin"]}
{"id": "C32", "title": "Gradient accumulation equals large-batch steps", "statement": "Starting at a step count divisible by k, m micro-steps with gradient_accumulation_steps=k perform exactly floor(m/k) optimizer updates, the j-th with the (clipped) mean of the j-th block of k gradients, and leave the sum of the leftover gradients accumulated; with k <= 1 each gradient is applied at once. (When started from a restored step count not divisible by k this fails, because the accumulated gradients are not checkpointed.)", "quantifier": "all gradient sequences, all k>=1, all optimizers", "why_tests_cant": "All step histories.", "anchors": ["fortuna/training/trainer.py::TrainerABC.training_step", "fortuna/training/trainer.py::TrainerABC.params_update_with_grad_accumulation", "fortuna/training/mixin.py::WithCheckpointingMixin.save_checkpoint"]}
{"id": "C33", "title": "Train-state repository reads what was last written", "statement": "With a repository that keeps one checkpoint, after any history of put/update/pull calls get returns exactly the last state put with every later update applied to the named attributes only (on disk without accumulated gradients, whatever the order of steps); get and update raise exactly when nothing is stored; extract returns exactly the requested attributes. update on disk is not atomic: a crash between removal and re-write leaves no state; and with an explicit checkpoint_path a second update fails.", "quantifier": "all histories of put/get/pull/update and all crash points", "why_tests_cant": "Crash points and histories.", "anchors": ["fortuna/training/train_state_repository.py::TrainStateRepository", "fortuna/training/mixin.py::WithCheckpointingMixin.save_checkpoint", "fortuna/training/mixin.py::WithCheckpointingMixin.restore_checkpoint"]}
{"id": "C34", "title": "Posterior samples are stored in isolated slots", "statement": "In a multi-state repository, put(i) followed by get(j) returns the new state for j=i and the previous one otherwise; pull(i) returns what get(i) returns, leaves the other slots unchanged and empties slot i on disk (in memory the state stays); extracting keys over all slots returns them in slot order. False of the code: put without an index stores the state in all slots (it raises AttributeError and stores nothing).", "quantifier": "all numbers of slots, all histories of put/update/pull", "why_tests_cant": "All histories.", "anchors": ["fortuna/prob_model/posterior/posterior_multi_state_repository.py::PosteriorMultiStateRepository"]}
{"id": "C35", "title": "SGHMC collects exactly the requested samples", "statement": "If the sampling callback's constructor accepts the configuration, then running the configured number of training steps collects exactly n_samples states: sample i goes to slot i and is the state after step burnin+(i+1)*thinning; nothing is collected during burn-in or after n_samples, however long training runs; the constructor raises exactly when fewer than burnin + n_samples*thinning steps are available.", "quantifier": "all n_epochs, steps per epoch, burn-in, thinning, n_samples", "why_tests_cant": "All schedules.", "anchors": ["fortuna/prob_model/posterior/sgmcmc/sghmc/sghmc_callback.py::SGHMCSamplingCallback", "fortuna/prob_model/posterior/sgmcmc/sgmcmc_sampling_callback.py::SGMCMCSamplingCallback"]}
{"id": "C36", "title": "Cyclical SGLD collects the requested samples; which updates produce them", "statement": "If the constructor accepts, exactly n_samples states are collected, at increasing steps in the sampling part of their cycles, at multiples of the thinning. Such a state is produced by a Langevin update except at the first step of the sampling part, where it is produced by an exploration (SGD) update; so all are samples if thinning skips that step. False as documented: that all collected states are produced by Langevin updates (the callback counts one step ahead of the integrator).", "quantifier": "all cycle lengths, exploration ratios, thinning, horizons", "why_tests_cant": "Off-by-one across two components visible only at phase boundaries.", "anchors": ["fortuna/prob_model/posterior/sgmcmc/cyclical_sgld/cyclical_sgld_callback.py::CyclicalSGLDSamplingCallback", "fortuna/prob_model/posterior/sgmcmc/cyclical_sgld/cyclical_sgld_integrator.py::cyclical_sgld_integrator"]}
{"id": "C37", "title": "SG-MCMC step sizes stay in range", "statement": "Every step-size schedule returns non-negative step sizes bounded by its initial (or larger of initial/final) step size; the cosine schedule is non-increasing until total_steps; the cosine burn-in schedule equals the final step size from the end of burn-in; the polynomial schedule is strictly decreasing, not summable and square-summable (Robbins-Monro); the cyclical schedule is periodic and non-increasing within a cycle. (False corners: burnin_steps=0 gives a first step size that is not a number; the cyclical step size restarts one step after the integrator's cycle.)", "quantifier": "all step indices and valid hyper-parameters", "why_tests_cant": "All steps.", "anchors": ["fortuna/prob_model/posterior/sgmcmc/sgmcmc_step_schedule.py"]}
{"id": "C38", "title": "Preconditioner is consistent", "statement": "For the RMSprop preconditioner the second-moment estimates stay non-negative for every gradient history and applying the inverse after the square-root operator twice is the identity; sqrt_inv undoes sqrt; the identity preconditioner returns its argument.", "quantifier": "all gradient histories, all vectors, decay in [0,1], eps>0", "why_tests_cant": "All histories.", "anchors": ["fortuna/prob_model/posterior/sgmcmc/sgmcmc_preconditioner.py"]}
{"id": "C39", "title": "SGHMC reduces to SGLD and resamples momentum on schedule", "statement": "With momentum decay 0 the SGHMC update equals the (preconditioned) Langevin update h*M^-1*g + sqrt(2h)*M^-1/2*noise at every step; momentum is reset to zero exactly on steps whose index is a multiple of momentum_resample_steps; the momentum is the discounted sum of gradients and noises, with a fresh random key at every step; the cyclical integrator takes a noiseless gradient step in the exploration phase.", "quantifier": "all gradient/noise sequences and step sizes", "why_tests_cant": "All histories.", "anchors": ["fortuna/prob_model/posterior/sgmcmc/sghmc/sghmc_integrator.py::sghmc_integrator"]}
{"id": "C40", "title": "SWAG statistics", "statement": "After any number of updates SWAG's running second moment minus squared mean is non-negative for every weight, at most rank deviation columns are stored and they are the most recent ones; when there is one update per epoch the mean is the arithmetic mean of all collected weights. (With several updates per epoch the mean is not the mean of all iterates.)", "quantifier": "all weight trajectories, ranks >= 2", "why_tests_cant": "All trajectories.", "anchors": ["fortuna/prob_model/posterior/swag/swag_trainer.py::SWAGTrainer"]}
{"id": "C41", "title": "Random keys", "statement": "Successive calls to RandomNumberGenerator.get never return the same key and generators with different seeds never share a key (free-key model); but a key returned by get, when split by the caller, reproduces the generator's next key as its first child.", "quantifier": "all numbers of calls", "why_tests_cant": "Reuse across unbounded call sequences.", "anchors": ["fortuna/utils/random.py::RandomNumberGenerator.get"]}
{"id": "C42", "title": "Expected calibration error is a weighted average", "statement": "expected_calibration_error lies in [0,1]; the bin counts sum to the number of points and each point falls in exactly one bin; the metric equals the bin-wise absolute excess of correct predictions over confidence divided by the number of points, and bounds the gap between accuracy and mean confidence; a perfectly accurate and confident classifier scores 0; the metric is invariant under permuting the data.", "quantifier": "all predictions, probabilities in [0,1], targets", "why_tests_cant": "All inputs incl. bin boundaries.", "anchors": ["fortuna/metric/classification.py::compute_counts_confs_accs", "fortuna/metric/classification.py::expected_calibration_error"]}
{"id": "C43", "title": "Maximum calibration error", "statement": "maximum_calibration_error is the largest over the ten bins of |sum over the rows of the bin of (correct - confidence)|; it is non-negative, zero exactly if the expected calibration error is, at least the expected calibration error, at least the gap between accuracy and confidence of every bin that has rows, and at most the number of rows. False: that it lies in [0,1] (gaps are multiplied by bin counts; four confident mistakes give 4).", "quantifier": "all predictions, probabilities, targets", "why_tests_cant": "All inputs.", "anchors": ["fortuna/metric/classification.py::maximum_calibration_error"]}
{"id": "C44", "title": "Brier score, accuracy and interval coverage are bounded", "statement": "brier_score of probability rows with valid targets lies in [0,2] (in [0,1] for binary probabilities) and is zero exactly for the one-hot forecasts of the targets; accuracy and prediction_interval_coverage_probability are the fractions of correct/covered points, so lie in [0,1] and equal 1 exactly when all points are correct/covered; RMSE squared equals MSE, which is zero exactly when predictions equal targets. Interval coverage accepts vectors and single columns. False of the code: regression targets given as a vector are broadcast against the column of predictions, so that perfect predictions have a positive error.", "quantifier": "all inputs", "why_tests_cant": "All inputs.", "anchors": ["fortuna/metric/classification.py::brier_score", "fortuna/metric/classification.py::accuracy", "fortuna/metric/regression.py::prediction_interval_coverage_probability", "fortuna/metric/regression.py::root_mean_squared_error"]}
{"id": "C45", "title": "Law of total variance", "statement": "For the same posterior samples, aleatoric variance + epistemic variance equals the variance of the mixture of the sample distributions; epistemic variance is non-negative and zero exactly when all samples agree; clamping at zero never changes its value in exact arithmetic. (False for variance called with one key: it draws different posterior samples for its two parts.) A part passed to variance is used as it is; if it was computed with the key that variance then uses for the other part, the result is the variance of the mixture. (False of the documentation: aleatoric_variance and epistemic_variance are documented with each other's formula.)", "quantifier": "all numbers of samples >= 1, all means and variances", "why_tests_cant": "Identity over all inputs.", "anchors": ["fortuna/prob_model/predictive/base.py::Predictive.aleatoric_variance", "fortuna/prob_model/predictive/base.py::Predictive.epistemic_variance", "fortuna/prob_model/predictive/base.py::Predictive.variance"]}
{"id": "C46", "title": "Predictive entropy decomposition", "statement": "For classification with the same posterior samples, entropy = aleatoric entropy + epistemic entropy, epistemic entropy is non-negative, and entropy lies between 0 and log(number of classes).", "quantifier": "all numbers of samples and classes, all positive probability rows", "why_tests_cant": "Convexity inequality over all inputs.", "anchors": ["fortuna/prob_model/predictive/classification.py::ClassificationPredictive.entropy", "fortuna/prob_model/predictive/classification.py::ClassificationPredictive.aleatoric_entropy", "fortuna/prob_model/predictive/classification.py::ClassificationPredictive.epistemic_entropy"]}
{"id": "C47", "title": "Credible sets are minimal and reach their mass", "statement": "credible_set returns, for error in (0,1], the shortest prefix of the labels sorted by decreasing probability whose mass exceeds 1-error. (For error = 0 the returned set is only the most likely label.)", "quantifier": "all probability rows, all error levels", "why_tests_cant": "All probability vectors incl. exact boundary.", "anchors": ["fortuna/prob_model/predictive/classification.py::ClassificationPredictive.credible_set"]}
{"id": "C48", "title": "Credible intervals and quantiles are ordered", "statement": "Two-tailed credible_interval has lower <= upper for every error in [0,1], narrower intervals for larger error, always within the range of the samples; quantile is monotone in q. Both credible_interval methods return one row per input, two-tailed with two numbers and otherwise one, and refuse targets with more than one component. False: an unknown interval type raises ValueError in the output layer's method (it raises IndexError while formatting the message).", "quantifier": "all samples, all error levels", "why_tests_cant": "All inputs.", "anchors": ["fortuna/prob_model/predictive/regression.py::RegressionPredictive.credible_interval", "fortuna/prob_model/predictive/regression.py::RegressionPredictive.quantile", "fortuna/prob_output_layer/regression.py::RegressionProbOutputLayer.credible_interval", "fortuna/prob_output_layer/regression.py::RegressionProbOutputLayer.credible_interval"]}
{"id": "C49", "title": "Ensemble log-probability is a log-mean", "statement": "Predictive.log_prob equals the log of the arithmetic mean of the per-sample likelihoods; it is between the smallest and largest per-sample log-likelihood and at least their arithmetic mean.", "quantifier": "all numbers of samples, all log-likelihoods", "why_tests_cant": "Inequality over all reals.", "anchors": ["fortuna/prob_model/predictive/base.py::Predictive.log_prob"]}
{"id": "C50", "title": "Predictive statistics do not depend on batching", "statement": "Predictive and likelihood statistics computed batch-by-batch and concatenated equal the statistic computed on the whole data set in one batch, with any device count dividing the batches. Without any batch they raise.", "quantifier": "all batchings", "why_tests_cant": "All ways of batching.", "anchors": ["fortuna/prob_model/predictive/base.py::Predictive._loop_fun_through_inputs_loader", "fortuna/likelihood/base.py::Likelihood._loop_fun_through_inputs_loader"]}
{"id": "C51", "title": "Mini-batch log-joint is an unbiased estimate", "statement": "Averaging the batched log joint probability over the batches of an epoch equals the full-data log joint when all batches have equal size. (With a smaller last batch the unweighted epoch average differs.)", "quantifier": "all data sets, equal batch sizes, any per-point log-likelihood", "why_tests_cant": "All data.", "anchors": ["fortuna/likelihood/base.py::Likelihood._batched_log_joint_prob", "fortuna/prob_model/joint/base.py::Joint._batched_log_joint_prob"]}
{"id": "C52", "title": "Temperature scaling", "statement": "Binary temperature scaling with a positive temperature gives one probability in [0,1] per input and keeps their order; the bias scaler's fitted temperature makes the mean scaled probability equal the mean target (never above it after clipping); the Brier scaler's temperature minimises the unclipped squared error over all temperatures and clipping never makes it worse; for targets that are 0 or more the bias scaler fits a temperature exactly if some target is positive and the Brier scaler exactly if a positive target has a positive probability, and these temperatures are positive if some probability is; the decision rule optimised by the F1 scaler is the one `predict` applies, and its loss is -2TP/(predicted+actual positives), in [-1,0]. Temperatures fitted by grid search (F1, cross-entropy, multi-class) are at least as good on the calibration data as every point of their grid; for positive probabilities the F1 scaler's temperature is positive and its predictions score at least as well as predicting 1 everywhere. Multi-class scaling with a positive temperature gives probability rows in the same order, temperature 1 is the identity, `predict` is the arg-max of `predict_proba`, and on softmax outputs the scaling equals dividing the logits. With a negative temperature the order is reversed while `predict` is not. False of the code: with a probability of 0 the F1 scaler can return the temperature 0, whose predictions are not those it scored.", "quantifier": "all probability arrays and targets, all temperatures > 0", "why_tests_cant": "Optimality over a continuum.", "anchors": ["fortuna/calibration/classification/temp_scaling/base.py::ClassificationTemperatureScaling", "fortuna/calibration/binary_classification/temp_scaling/bias_binary_temp_scaling.py", "fortuna/calibration/binary_classification/temp_scaling/brier_binary_temp_scaling.py", "fortuna/calibration/binary_classification/temp_scaling/base.py", "fortuna/calibration/binary_classification/temp_scaling/f1_temp_scaling.py", "fortuna/calibration/binary_classification/temp_scaling/crossentropy_binary_temp_scaling.py"]}
{"id": "C53", "title": "Kernel regression stays in the convex hull", "statement": "Whenever the Nadaraya-Watson regressor returns a number it is the kernel-weighted mean of the training targets (standardising targets makes no difference), so for a non-negative kernel and positive bandwidth it lies between the smallest and largest target; permuting the training pairs changes nothing; with the default kernel a number is returned exactly when the targets are not all equal (constant targets give NaN); the scaled default kernel is the density of a normal distribution whose standard deviation is the bandwidth; as the bandwidth goes to zero the predictions tend to the average target of the nearest training inputs, and as it grows to the average of all targets.", "quantifier": "all training sets, queries, bandwidths", "why_tests_cant": "All inputs.", "anchors": ["fortuna/kernel_regression/nadaraya_watson.py::NadarayaWatsonKernelRegressor"]}
{"id": "C54", "title": "Classification losses", "statement": "Cross-entropy is the mean negative log-likelihood of the classification output layer, non-negative and unchanged by adding a constant to the logits; focal loss with gamma=0 equals it, decreases in gamma, and for gamma>=0 lies between 0 and cross-entropy; the scaled mean squared error equals twice the mean negative log-likelihood of the regression output layer minus d log 2pi.", "quantifier": "all logits, targets, gamma >= 0", "why_tests_cant": "All inputs.", "anchors": ["fortuna/loss/classification/focal_loss.py::focal_loss_fn", "fortuna/loss/classification/cross_entropy.py::cross_entropy_loss_fn"]}
{"id": "C55", "title": "Hallucination detection: balancing, batching, grouping, scores", "statement": "After balancing the two classes have equal counts, the original examples remain first and unchanged, and every appended example is a copy of an existing one of the rarer class with its context and target; balancing fails exactly when one class is absent and the other not; batching of texts and contexts loses nothing and keeps pairs together; every row belongs to at least one group and at fit every group has at least n - ceil(threshold (n-1)) members; hard assignment marks exactly one most likely cluster; the clustering model kept is the first with the least BIC; the score is the geometric mean of the language-model probabilities of the text tokens, in (0,1]; rows of equal token lengths get the score they get alone. False of the code: with padding the score of a text depends on the other texts of its batch, a text without tokens is scored by all tokens of its row, and soft assignment may leave all inputs without a cluster. In a batch the model is given, for every row, a sequence as long as the longest context plus the longest text, whose attended tokens are those of the context followed by those of the text, the others being padding.", "quantifier": "all data sets with both classes, all random draws", "why_tests_cant": "All random draws.", "anchors": ["fortuna/hallucination/base.py::HallucinationMulticalibrator._balance_data", "fortuna/hallucination/base.py::HallucinationMulticalibrator._get_groups", "fortuna/hallucination/base.py::HallucinationMulticalibrator._batch"]}
{"id": "C56", "title": "Calibration error of multivalid methods is a probability-weighted quantity in [0,1]", "statement": "calibration_error of groups/values/scores returns a number in [0,1] for scores and values in [0,1]. (That a zero calibration error implies calibration on the given groups is false and refuted.)", "quantifier": "all groups, scores, values in [0,1], bucket counts", "why_tests_cant": "All data sets and grids.", "anchors": ["fortuna/conformal/multivalid/base.py"]}
{"id": "C57", "title": "One-shot calibration keeps values in [0,1]", "statement": "OneShot multicalibration produces one patch per non-empty cell and applying the patches keeps values in [0,1]. (Row-wise independence of apply is false and refuted.) A row belongs to the cell of value v and class c exactly if c is its first most likely class and its probability is within half a bucket of v. A fitted patch is the mean score of its cell if the cell has more than the minimum probability, and the bucket value otherwise. Applying patches changes only the probability of the first most likely class, to the patch of the bucket nearest to the largest entry of the batch within half a bucket of it.", "quantifier": "all groups, scores, values, grids", "why_tests_cant": "All data sets.", "anchors": ["fortuna/conformal/multivalid/one_shot/base.py"]}
{"id": "C58", "title": "BatchMVP patch minimises coverage error over its grid", "statement": "The patch chosen by BatchMVP for a cell minimises the squared coverage gap over the grid of shifts. (That it is the smallest such shift is false and refuted.)", "quantifier": "all cells, scores and values, grids", "why_tests_cant": "Quantifies over the grid and every data set.", "anchors": ["fortuna/conformal/multivalid/mixins/batchmvp.py"]}
{"id": "C59", "title": "find_one_path_to_key finds the key", "statement": "If the key occurs anywhere in the nested dictionary, find_one_path_to_key returns a valid path whose last and only occurrence of the key is its end; otherwise it returns the empty path.", "quantifier": "all nested dictionaries, all keys", "why_tests_cant": "All tree shapes.", "anchors": ["fortuna/utils/nested_dicts.py::find_one_path_to_key"]}
{"id": "C60", "title": "nested_update merges deeply", "statement": "After nested_update(d, u) every leaf of u is found at its path, every path that u neither contains nor cuts off keeps the value of d (also inside updated sub-dictionaries), and every leaf of the result comes from d or u.", "quantifier": "all nested dictionaries", "why_tests_cant": "All tree shapes.", "anchors": ["fortuna/utils/nested_dicts.py::nested_update"]}
{"id": "C61", "title": "Dynamic loss scaling skips overflowing steps", "statement": "With a dynamic loss scale a training step whose gradient is not finite leaves parameters and optimizer state unchanged, a finite one is the ordinary step, and both advance the step count. (False under gradient accumulation: a skipped gradient stays in the accumulator and enters the next update.)", "quantifier": "all states, gradients, optimizers, accumulation factors", "why_tests_cant": "Overflow patterns are data dependent; tests use one finite batch.", "anchors": ["fortuna/training/trainer.py::TrainerABC.training_step"]}
{"id": "C62", "title": "The training loop: keys, callbacks, epochs, checkpoints", "statement": "Without accumulation the key of every training step is the base key folded with the step count, so no two steps share a key and a resumed run uses the same keys; without early stopping exactly n_epochs epochs run, the counters grow by the number of batches and validation runs exactly at epochs 0,k,2k,...; callbacks under accumulation run exactly after optimizer updates if the epoch starts at a multiple of k; after train the latest checkpoint is the final state and at most keep_top_n files remain. (False: alignment when batches per epoch is not a multiple of k; distinct keys under accumulation; survival of the best checkpoint; re-running into the same directory.) A validation writes a checkpoint exactly if a directory is given, early stopping is active and the metric is the first or beats the best by more than min_delta; that state is then the only checkpoint. Without a checkpoint directory, training on epochs of at least one batch and of at least gradient_accumulation_steps batches goes through. False of the code: training on epochs of fewer batches than gradient_accumulation_steps works; no loss is recorded in such an epoch and the average at its end raises.", "quantifier": "all data, batch counts, epochs, accumulation factors, validation frequencies, metrics", "why_tests_cant": "Depends on every combination of epoch length, accumulation and checkpoint frequency.", "anchors": ["fortuna/training/trainer.py::TrainerABC.train", "fortuna/training/trainer.py::TrainerABC._training_loop", "fortuna/training/trainer.py::TrainerABC.training_step_end", "fortuna/training/trainer.py::TrainerABC.on_train_end", "fortuna/training/mixin.py::WithCheckpointingMixin.save_checkpoint"]}
{"id": "C64", "title": "Conformal sets from add-one-in importance sampling are valid", "statement": "conformal_set: with exact posterior samples the importance-weighted scores are the predictive probabilities given the training data and the candidate, so taking each of n+1 points as test point in turn, its label is missing from the set at most error*(n+1) times; the set lists exactly the labels in the region, each once; larger error gives smaller sets; the likelihood looked up for (input, label) belongs to that pair; the effective sample size is between 1 and the number of samples; from loaders with at least one batch to sets, for every batching and number of devices dividing the batches, label c is in the set of test input x exactly if c is below the number of distinct training labels and the rank of (x, c) exceeds the level. False: a label that all training points bear can be in a set (with labels not numbered from 0 it is never a candidate).", "quantifier": "all finite parameter spaces, priors, likelihoods, data sets, error levels", "why_tests_cant": "A distribution-free guarantee; a test can only look at one data set.", "anchors": ["fortuna/prob_model/predictive/classification.py::ClassificationPredictive.conformal_set"]}
{"id": "C65", "title": "Predictive samples: shape, order and randomness", "statement": "Predictive.sample without a key, auxiliary outputs and distribution returns n samples with one value per input in loader order. On d devices entry k*n+s holds what device k drew for its share of every batch. False: passing a key raises; the same key is used for every batch and device, so that equal batches get equal samples; with d devices the first axis has length d*n; with return_aux=['outputs'] no outputs are returned, unequal batches are refused and the samples of further batches are stacked as further samples.", "quantifier": "all batchings, device counts, numbers of samples", "why_tests_cant": "Tests use one batch, one device and no key.", "anchors": ["fortuna/prob_model/predictive/base.py::Predictive.sample"]}
{"id": "C66", "title": "Classification output layer is a categorical distribution", "statement": "For every row of logits the exponentials of log_prob over the labels 0..c-1 are positive and sum to 1, equal what mean returns, and do not change when a constant is added to the logits; predict returns the first most probable label; variance is the variance of the one-hot encoded label; entropy is its Shannon entropy, between 0 and the logarithm of the number of labels; std (without precomputed variances) is the square root of variance; the masked layer gives targets of 0 or less log-probability 0 and agrees with the plain layer elsewhere.", "quantifier": "all logits, all numbers of classes, all labels", "why_tests_cant": "Logits range over a continuum.", "anchors": ["fortuna/prob_output_layer/classification.py::ClassificationProbOutputLayer", "fortuna/prob_output_layer/classification.py::ClassificationMaskedProbOutputLayer", "fortuna/prob_output_layer/base.py::ProbOutputLayer.std"]}
{"id": "C67", "title": "Regression output layer is a Gaussian distribution", "statement": "The exponential of log_prob is the density of independent Gaussians with the output means and variances exp(log-variance), integrating to 1 for scalar targets; mean and variance return the moments of that Gaussian, predict its unique mode; samples drawn from standard normal noise have that law; the entropy estimate is the exact Gaussian entropy up to the mean squared noise.", "quantifier": "all outputs, targets, dimensions and noise", "why_tests_cant": "Density and moments are integrals over all targets.", "anchors": ["fortuna/prob_output_layer/regression.py::RegressionProbOutputLayer"]}
{"id": "C68", "title": "Gaussian priors", "statement": "The isotropic and the diagonal prior evaluate the log-density of centred Gaussians at the ravelled parameters; the value is additive over parts of the parameter tree and independent of ravelling order; one log-variance for all parameters gives the isotropic prior; a wrong number of log-variances is refused (models with more than one parameter); differences of the log prior are differences of squared norms over twice the variance; samples have the prior's law.", "quantifier": "all parameter vectors, log-variances and noise", "why_tests_cant": "All sizes and values.", "anchors": ["fortuna/prob_model/prior/gaussian.py::IsotropicGaussianPrior", "fortuna/prob_model/prior/gaussian.py::DiagonalGaussianPrior"]}
{"id": "C69", "title": "Output temperature scaling and mean-field logits", "statement": "Scaling logits by any temperature never changes the predicted class, and a larger temperature never raises its probability, which stays at least 1/c; the regression scaler leaves means unchanged and multiplies variances by the temperature; zero log-temperature is the identity; the likelihood-optimal regression temperature is the mean squared standardised residual; the SNGP mean-field correction with non-negative factor keeps the prediction and never raises its probability, and a negative factor is refused.", "quantifier": "all logits, temperatures, variances, calibration sets", "why_tests_cant": "Optimality and monotonicity over a continuum.", "anchors": ["fortuna/output_calibrator/classification.py::ClassificationTemperatureScaler", "fortuna/output_calibrator/regression.py::RegressionTemperatureScaler", "fortuna/model/model_manager/classification.py::SNGPClassificationModelManagerMixin._mean_field_logits"]}
{"id": "C70", "title": "Log-joint calls: arguments and auxiliary objects", "statement": "A call of the batched log joint is accepted exactly when state is requested if and only if training with state and precomputed outputs come only outside training; an accepted call, with a calibration manager and calibrator state as initialised, returns the weighted sum of log-probabilities of the calibrated outputs together with exactly the requested objects, freshly updated; precomputed outputs give the same value as computing them; the negative log joint with an explicit return_aux is its negation.", "quantifier": "all models, calibrators, states and argument combinations", "why_tests_cant": "All combinations and forward functions.", "anchors": ["fortuna/likelihood/base.py::Likelihood._batched_log_joint_prob", "fortuna/prob_model/joint/base.py::Joint", "fortuna/output_calibrator/output_calib_manager/base.py::OutputCalibManager.apply"]}
{"id": "C71", "title": "Parameters and state are split without loss", "statement": "Initialising model and calibration manager states splits each network's variables into parameters and other collections without losing, duplicating or renaming any; state is absent exactly when no network has any; a stateless regression model returns just its outputs.", "quantifier": "all variable dictionaries", "why_tests_cant": "All dictionaries.", "anchors": ["fortuna/model/model_manager/state.py::ModelManagerState.init_from_dict", "fortuna/output_calibrator/output_calib_manager/state.py::OutputCalibManagerState.init_from_dict", "fortuna/model/model_manager/regression.py::RegressionModelManager.apply"]}
{"id": "C72", "title": "Mahalanobis OOD score", "statement": "Fitted class means are the means of the class members; when all classes occur the shared covariance is the pooled within-class covariance, symmetric and positive semidefinite; the score is the squared distance to the nearest class mean, non-negative, 0 at a class mean and translation invariant. False of the code: a class without training points (only a warning) makes the whole covariance NaN; the score is the minimum, not the documented maximum.", "quantifier": "all embeddings, labels, numbers of classes and dimensions, all positive semidefinite inverse covariances", "why_tests_cant": "Data-set dependent NaN and all inputs.", "anchors": ["fortuna/ood_detection/mahalanobis.py::compute_mean_and_joint_cov", "fortuna/ood_detection/mahalanobis.py::compute_mahalanobis_distance", "fortuna/ood_detection/mahalanobis.py::MalahanobisOODClassifier.score"]}
{"id": "C73", "title": "DDU OOD score", "statement": "Each class with at least two members gets their mean and unbiased covariance; a class with exactly one member makes fit raise; exp(-score) is the sum of the class densities, so the score never increases when all class densities do; the jitter used is the first leaving no NaN at the class means. False of the code: a class without members is accepted, adds a jitter of 1/10 to the covariances of all classes and makes every score at most 0 however far the point, and classes are not weighted by q(y) as documented, which can reverse the order of two points.", "quantifier": "all embeddings, labels, log-densities, jitter lists", "why_tests_cant": "Depends on class sizes that test data do not have.", "anchors": ["fortuna/ood_detection/ddu.py::compute_classwise_mean_and_cov", "fortuna/ood_detection/ddu.py::_get_logpdf_fn", "fortuna/ood_detection/ddu.py::DeepDeterministicUncertaintyOODClassifier.score"]}
{"id": "C63", "title": "Sample repository restricted to trainable parameters", "statement": "With a selection of parameter paths, the SGMCMC state repository stores for each slot only the selected parameters and rebuilds the full parameters on reading: reading a slot gives the state put with the selected parameters it held, and every other parameter from all_params; hence a chain of samples that agree with all_params outside the selection comes back exactly, each slot giving the last state put in it. Without a selection it is the plain repository. A state lacking a selected parameter is refused. Updating other attributes changes no parameter. False of the code: reading all slots at once with a selection raises NameError; with an empty selection stored states cannot be read.", "quantifier": "all nested parameter dictionaries, selections of pairwise non-prefix paths, sequences of puts and slots", "why_tests_cant": "Nesting, path sets and put sequences are unbounded.", "anchors": ["fortuna/prob_model/posterior/sgmcmc/sgmcmc_posterior_state_repository.py::SGMCMCPosteriorStateRepository.get", "fortuna/prob_model/posterior/sgmcmc/sgmcmc_posterior_state_repository.py::SGMCMCPosteriorStateRepository.put", "fortuna/prob_model/posterior/posterior_multi_state_repository.py::PosteriorMultiStateRepository.update", "fortuna/utils/nested_dicts.py::nested_set"]}
{"id": "C75", "title": "Where a posterior fit starts, and saving/loading posteriors", "statement": "For each posterior method the state a fit starts from follows the documented precedence: a restore checkpoint path first, then the current state when asked, then (where used) a MAP run, else a fresh initialisation; nothing stored is read unless asked; SWAG and Laplace never start from random values; SWAG runs exactly when that start is accepted, its rank is at least 2 and there are more epochs than its rank; dump_state without a directory is refused by every method. With frozen parameters the start takes the frozen leaves from the MAP run and the trainable leaves from the random initialisation. Saving a posterior state to a directory and loading it gives the same state. False of the code: save_state of an ensemble does not write to the given directory; load_state checks only the first member; continuing an ensemble fit whose storage location changed loses the current states.", "quantifier": "all methods, configurations, states, directories and ensemble sizes", "why_tests_cant": "The configuration space is a product of many flags with arbitrary stored contents.", "anchors": ["fortuna/prob_model/posterior/base.py::Posterior.load_state", "fortuna/prob_model/posterior/map/map_posterior.py::MAPPosterior.fit", "fortuna/prob_model/posterior/swag/swag_posterior.py::SWAGPosterior.fit", "fortuna/prob_model/posterior/laplace/laplace_posterior.py::LaplacePosterior.fit", "fortuna/prob_model/posterior/normalizing_flow/advi/advi_posterior.py::ADVIPosterior.fit", "fortuna/prob_model/posterior/deep_ensemble/deep_ensemble_posterior.py::DeepEnsemblePosterior.fit", "fortuna/prob_model/posterior/deep_ensemble/deep_ensemble_posterior.py::DeepEnsemblePosterior.load_state"]}
{"id": "C74", "title": "Laplace approximation", "statement": "The stored Hessian diagonal is minus the diagonal of the generalised Gauss-Newton matrix of the log-likelihood summed over the data, whatever the batching and order; for classification it is the sum over the data of the variance of the logit derivatives under the predicted probabilities, for regression with separate mean and log-variance models it is also non-negative; hence every standard deviation is positive, at most the prior's, shrinks as the Hessian grows, and its inverse square is prior precision plus Hessian. Converting a MAP state to a Laplace state and back gives the MAP parameters. A sample holds at every selected parameter mean + std * noise entrywise and every other parameter unchanged, in whatever order the selection is read. Tuning of the prior log-variance on one device returns the first minimiser of the validation loss among grid and prior; the loss is minus the sum over the validation points of the log of the mean likelihood over the posterior samples, whatever the batches and their order; modes other than cross-validation and empty loaders are refused. Sampling from a state whose Hessian has another structure than the mean raises. False of the code: without distribution over devices tuning raises NameError, over several devices it raises since scalars cannot be sharded, and with a diagonal prior it raises if the prior's own log-variance is best.", "quantifier": "all networks (Jacobians), data sets, batchings, parameter trees, selections, noises, candidate grids", "why_tests_cant": "All data sets and networks; positivity for every input is a theorem about second derivatives.", "anchors": ["fortuna/prob_model/posterior/laplace/laplace_posterior.py::LaplacePosterior._gnn_approx", "fortuna/prob_model/posterior/laplace/laplace_posterior.py::LaplacePosterior._compute_std", "fortuna/prob_model/posterior/laplace/laplace_posterior.py::LaplacePosterior.sample", "fortuna/prob_model/posterior/laplace/laplace_posterior.py::LaplacePosterior._init_map_state", "fortuna/prob_model/posterior/laplace/laplace_posterior.py::LaplacePosterior._prior_log_variance_tuning_cv", "fortuna/prob_model/posterior/laplace/laplace_state.py::LaplaceState.convert_from_map_state", "fortuna/prob_model/posterior/laplace/laplace_posterior.py::LaplacePosterior.prior_log_variance_tuning", "fortuna/prob_model/posterior/laplace/laplace_posterior.py::LaplacePosterior._batched_log_prob"]}
{"id": "C76", "title": "ADVI flow, loss and sampling", "statement": "Forward and backward maps are inverse with opposite log-determinants; the resulting density is the diagonal Gaussian with the stored mean and standard deviation exp(log_std)*exp(log_std_base), a product of normal densities, which is also how samples are built; the training loss is the Monte Carlo estimate of KL(q||joint) up to a term not depending on the variational parameters. With frozen parameters, storing and unpairing gives back means and log-stds; a sample holds mean + exp(log_std)*noise in the selected parameters and leaves the others; training starts from the given vector when the selected paths are in sorted order. False of the code: with paths in another order (kernel before bias) training starts from exchanged values; with eleven or more selected parameters and the state on disk, samples exchange parameters.", "quantifier": "all dimensions, variational parameters, base samples, parameter trees and selections", "why_tests_cant": "Equality of densities and losses for all inputs; path sets of any size.", "anchors": ["fortuna/prob_model/posterior/normalizing_flow/advi/advi_architecture.py::ADVIArchitecture.forward", "fortuna/prob_model/posterior/normalizing_flow/advi/advi_architecture.py::ADVIArchitecture.backward", "fortuna/prob_model/posterior/normalizing_flow/normalizing_flow_trainer.py::NormalizingFlowTrainer.training_loss_step", "fortuna/prob_model/posterior/normalizing_flow/advi/advi_trainer.py::ADVITrainer.on_train_start", "fortuna/prob_model/posterior/normalizing_flow/advi/advi_trainer.py::ADVITrainer._unravel_params", "fortuna/prob_model/posterior/normalizing_flow/advi/advi_posterior.py::ADVIPosterior.sample", "fortuna/prob_model/posterior/normalizing_flow/advi/advi_posterior.py::ADVIPosterior._get_unravel", "fortuna/distribution/gaussian.py::DiagGaussian"]}
{"id": "C77", "title": "SWAG sampling", "statement": "For noise with mean zero and identity covariance, SWAG samples have the averaged parameters as mean and covariance diag(std^2)/2 + dev dev^T/(2 rank). Without freezing, a vector of SWAG statistics goes back to the parameters it came from; with frozen parameters in sorted path order, a vector of SWAG statistics goes back to the parameters it came from and no other parameter changes. False of the code: with eleven or more selected parameters and the state on disk the parameters are exchanged.", "quantifier": "all noise distributions with these moments, dimensions, ranks, parameter trees and selections", "why_tests_cant": "Statement about distributions; path sets of any size.", "anchors": ["fortuna/prob_model/posterior/swag/swag_posterior.py::SWAGPosterior.sample", "fortuna/prob_model/posterior/swag/swag_posterior.py::SWAGPosterior._get_sample", "fortuna/prob_model/posterior/swag/swag_trainer.py::SWAGTrainer.training_step_end"]}
{"id": "C78", "title": "SNGP: random-feature Gaussian process", "statement": "After a fit on one device without momentum, the stored precision matrix is ridge*I plus the sum of phi phi^T over exactly the training points of the last epoch (each epoch starts from a reset), and no other entry of the mutable state is touched by the reset; with momentum it is the stated exponential average. Applying the model updates the covariance and random-feature collections only through the Gaussian-process layer and all other collections only through the feature extractor. The predictive covariance is ridge * phi^T P^-1 phi; the precision is symmetric positive definite; the variance of a point lies between 0 and phi^T phi, does not grow when training points are added, equals phi^T phi for a point orthogonal to all training features, and is at most ridge*|phi|^2/(ridge+k|phi|^2) for a point seen k times. Mean-field logits keep the order of the classes and never raise the confidence of the top class, and a larger variance lowers it. Models without spectral normalisation, and a negative mean-field factor, are refused. False of the code: momentum 0 is accepted and may leave a singular precision; with several devices the precision holds only the points of the first device (or the total divided by the number of devices).", "quantifier": "all feature maps, training sets, batchings, numbers of epochs, ridge > 0, parameter and state trees", "why_tests_cant": "Statement about all training sets and about monotonicity in the data.", "anchors": ["fortuna/model/utils/random_features.py::RandomFeatureGaussianProcess", "fortuna/model/utils/random_features.py::LaplaceRandomFeatureCovariance.update_precision_matrix", "fortuna/model/model_manager/classification.py::SNGPClassificationModelManagerMixin.apply", "fortuna/prob_model/posterior/sngp/sngp_callback.py::ResetCovarianceCallback", "fortuna/prob_model/posterior/sngp/sngp_posterior.py::SNGPPosterior.fit"]}
{"id": "C79", "title": "Spectral normalisation", "statement": "The singular value estimate is nonnegative and never exceeds any bound of the operator norm of the kernel; it does not decrease from one power iteration to the next; when the estimate exceeds the requested bound the kernel is multiplied by bound/estimate and otherwise left as it is; if the estimate equals the operator norm the normalised kernel has operator norm at most the bound; outside training the stored vectors are unchanged. False of the code: the operator norm of the normalised kernel can exceed the bound by any factor when the stored vector is orthogonal to the leading direction.", "quantifier": "all kernels, starting vectors, numbers of iterations, bounds", "why_tests_cant": "Holds for all real matrices and vectors.", "anchors": ["fortuna/model/utils/spectral_norm.py::SpectralNormalization.__call__"]}
{"id": "C80", "title": "Probit scaling of logits", "statement": "For a model with linearly independent Jacobian rows, the scale of output i of a scaled token is the least squared distance of its Jacobian row to the combinations of the Jacobian rows of the earlier scaled tokens, for every token if the memory covers all scaled tokens and otherwise up to the token at which the memory is first full; it is positive and at most the squared norm of the row, which is the sum of squares of all derivatives; the scaled logit f/(1 + pi/8 exp(log_var) scale) keeps the sign of f and is smaller in absolute value, more so for larger scales. Without sequences, top_k gives the selected outputs their own norm and all others the largest selected norm. Out-of-range n_final_tokens or memory are refused. False of the code: with a shorter memory a scale can be negative and the sign of a logit flip; in sequences, top_k assigns the scales to the wrong outputs, and to the wrong tokens if n_final_tokens is smaller than the sequence.", "quantifier": "all Jacobians with independent rows, sequence lengths, memories, logits and log-variances", "why_tests_cant": "Invariant of a block recursion over sequences of any length.", "anchors": ["fortuna/utils/probit.py::sequential_probit_scaling", "fortuna/utils/probit.py::probit_scaling", "fortuna/utils/grad.py::value_and_jacobian_squared_row_norm", "fortuna/model_editor/probit.py::ProbitModelEditor"]}
{"id": "C81", "title": "Diagnostics of sampled chains", "statement": "The kernel Stein discrepancy is a real number for every list of samples and gradients, every c > 0 and beta < 0: the sum under the root is never negative. Its square is the mean over all ordered pairs of samples of the Stein operator of the gradients applied in both arguments to the inverse multiquadric kernel, that is the sum over coordinates of d/dx d/dy k + g d/dy k + h d/dx k + g h k; it does not depend on the order of the samples; called without parameters it uses c = 1 and beta = -1/2. The effective sample size of a chain of n samples that is not constant is, for every threshold between 0 and 1, at most n and at least n/(2n-1), so more than one half, and does not change if the chain is shifted or rescaled. False of the code: with filter_threshold=None the divisor is zero for every chain; with a threshold above 1 the result is -n; giving c or beta in the call raises.", "quantifier": "all chain lengths, samples, gradients, dimensions, c > 0, beta < 0, thresholds", "why_tests_cant": "Positive semidefiniteness and bounds hold for all real chains; tests use a few.", "anchors": ["fortuna/prob_model/posterior/sgmcmc/sgmcmc_diagnostic.py::kernel_stein_discrepancy_imq", "fortuna/prob_model/posterior/sgmcmc/sgmcmc_diagnostic.py::effective_sample_size"]}
{"id": "C82", "title": "Datasets and collators for language models", "statement": "One epoch of the loader gives every row exactly once (in the order of the dataset unless shuffled), in batches of per-device size times devices, only the last of which may be smaller; with drop_last all batches are full and fewer than one batch of rows is left out. For masked models the joined texts of each call of the tokenizing function (1000 texts, see C142) are cut into chunks of exactly max_length tokens and fewer than max_length tokens are lost. For multiple choice, with the right number of choices in every row, entry (i, j) of a batch is choice j of row i with the context and header of row i and the label of row i. When masking, special tokens never change and never enter the loss, a token changes only where there is a label, the label is the original token, and the original sequence can be read off the result; with independent draws every token that is not special gets its label with probability p, independently of the others, and then becomes the mask token with probability 0.8, a uniformly drawn word with probability 0.1 and stays with probability 0.1; so the expected number of labels is p times the number k of such tokens, and a sequence has no label at all with probability (1-p)^k; without masking the labels are the inputs, -100 exactly at the padding token. False of the code: with drop_last the loader reports more rows than it gives whenever rows are dropped; rows with different numbers of choices are accepted if the total agrees and choices are then filed under another question; the collator uses the number of choices of the first row for all, drops choices beyond it, and raises an IndexError when a row has fewer; a real token equal to the padding token loses its label.", "quantifier": "all datasets, batch sizes, numbers of devices, permutations, texts, masks and random draws", "why_tests_cant": "Statement about all datasets and all random draws.", "anchors": ["fortuna/data/dataset/huggingface_datasets.py::HuggingFaceClassificationDatasetABC._get_batches_idxs", "fortuna/data/dataset/huggingface_datasets.py::HuggingFaceClassificationDatasetABC._get_data_loader", "fortuna/data/dataset/huggingface_datasets.py::HuggingFaceMultiChoiceDataset.get_tokenized_datasets", "fortuna/data/dataset/huggingface_datasets.py::HuggingFaceMaskedLMDataset.get_tokenized_datasets", "fortuna/data/dataset/data_collator.py::FlaxDataCollatorForMultipleChoice.__call__", "fortuna/data/dataset/data_collator.py::FlaxDataCollatorForLanguageModeling.mask_tokens", "fortuna/data/loader/huggingface_loaders.py::HuggingFaceDataLoader"]}
{"id": "C83", "title": "Schedules, weight decay mask and gradient clipping", "statement": "The stepped schedule is the initial value before the first boundary and the initial value times the scale of the last boundary reached afterwards; negative scales are refused. With a warmup shorter than training the linear schedule rises linearly from 0 to the learning rate, then falls linearly to 0 at steps per epoch times epochs, and never leaves [0, learning rate]. A parameter decays exactly if it is not a bias and no layer-norm-named parameter has the same last two names. Clipping by norm multiplies the gradient by one factor in [0, 1], gives norm at most the bound, leaves gradients below the bound (less 1e-7) as they are, and shrinks no more than needed; clipping by value is the projection on the box. False of the code: a warmup at least as long as training (also: fewer inputs than a batch) never decays; as steps are rounded down per epoch, whole epochs can be trained with rate zero; names are joined without separator so that parameters outside layer norms lose their decay.", "quantifier": "all schedules, step counts, data sizes, parameter paths and gradients", "why_tests_cant": "Holds for all steps and all gradients.", "anchors": ["fortuna/utils/optimizer.py::stepped_schedule", "fortuna/utils/optimizer.py::linear_scheduler_with_warmup", "fortuna/utils/optimizer.py::decay_mask_without_layer_norm_fn", "fortuna/utils/training.py::clip_grandients_by_norm", "fortuna/utils/training.py::clip_grandients_by_value"]}
{"id": "C84", "title": "Trainer selection, hashing and the check for random loaders", "statement": "Only devices=-1 and devices=0 are accepted; the multi-device trainer is chosen exactly if all devices are asked for and a GPU is present, the trainer without compilation exactly for the CPU with compilation off. Objects that compare equal have equal hashes, agree on all public attributes and ignore attributes with a leading underscore. The check that a loader is not random refuses exactly if one of the first four batches differs between two passes, so never refuses a deterministic loader. False of the code: several TPUs are not used together; the same attributes assigned in another order make unequal objects; a loader that differs after the fourth batch is accepted.", "quantifier": "all device lists, objects, loaders", "why_tests_cant": "Statement about all objects and loaders.", "anchors": ["fortuna/utils/device.py::select_trainer_given_devices", "fortuna/utils/builtins.py::HashableMixin", "fortuna/utils/data.py::check_data_loader_is_not_random"]}
{"id": "C85", "title": "Calibration of outputs", "statement": "A calibration run returns the state after some number E of epochs of gradient steps, each on a batch paired with its precomputed outputs; it reports one training loss per epoch (the average over the batches of the loss before each step) and one validation value per validated epoch (epochs divisible by eval_every_n_epochs), and ends before the requested epochs only when patience+1 validation values in a row fail to improve. With arrays instead of loaders this is full-batch descent: n epochs are n steps. Random keys never repeat. With a checkpoint directory the last checkpoint is the returned state, an epoch divisible by save_every_n_steps leaves its final state as the checkpoint and other epochs write none, and when the validation value improves the state is saved at once as the only checkpoint; without one nothing is written. An epoch without a batch is refused; a run without a directory whose epochs all have a batch never is. The loss is the given function of the calibrated outputs; predictive methods are those of the output layer on the outputs calibrated with the stored parameters, or on the raw outputs with calibrated=False, and are refused before calibration. On d devices rows must be a multiple of d, ensemble outputs are split like the data, and the result equals that of one device for losses that average over rows. False of the code: save_every_n_steps counts epochs; a metric to be maximised stops the run while it improves; the last state and not the best is returned; surplus batches are dropped; calibrators with state fail at the second step; calibration data must show every class, and labels out of range are accepted; on several devices validation metrics are computed on outputs averaged over devices, and accuracy is refused. Ensemble outputs whose number of rows does not divide among the devices are refused with ValueError.", "quantifier": "all losses, optimizers, data, batch lists, epochs, device counts", "why_tests_cant": "Loops over arbitrary data with arbitrary optimizers; device counts that CI does not have.", "anchors": ["fortuna/output_calib_model/output_calib_model_calibrator.py::OutputCalibModelCalibrator", "fortuna/output_calib_model/loss.py::Loss.__call__", "fortuna/output_calib_model/predictive/base.py::Predictive", "fortuna/output_calib_model/base.py::OutputCalibModel._calibrate", "fortuna/training/output_calibrator.py::OutputCalibratorABC", "fortuna/prob_model/prob_model_calibrator.py::ProbModelMultiDeviceMixin"]}
{"id": "C86", "title": "Checkpointed train states survive any number of sessions", "statement": "A posterior state written to disk and read back has its class, step, parameters, mutable and calibration objects, and the content of its optimizer state and dynamic scale; read back with an optimizer, the optimizer starts afresh. Training may be interrupted by checkpointing and restarting any number of times: for classes with names of at most ten characters (MAP, ADVI, SWAG, SGHMC), or without compilation, no restart fails, the class and state stay and the step counts the updates of all sessions; with an optimizer without state the parameters are those of an uninterrupted run. States of OutputCalibModel and CalibModel come back likewise. Posteriors refuse checkpoints of a CalibModel, a CalibModel those of an OutputCalibModel, an OutputCalibModel all others. False of the code: momentum is lost at a restart; states with longer names (OutputCalibState, LaplaceState, CyclicalSGLDState, PosteriorState) spell their name in the order 0,1,10,11,...,2 after a restart and a compiled step, so that the next checkpoint cannot be read; an OutputCalibState with mutable=None cannot be read back; a CalibModel accepts any posterior checkpoint; a half-precision model cannot be trained on after a restart because its dynamic scale comes back as a dictionary.", "quantifier": "all states, optimizers, gradients and sequences of steps and restarts", "why_tests_cant": "Sequences of sessions; the failing order of keys appears only from eleven characters and only after restart and compilation.", "anchors": ["fortuna/training/mixin.py::WithCheckpointingMixin.restore_checkpoint", "fortuna/training/mixin.py::WithCheckpointingMixin.save_checkpoint", "fortuna/prob_model/posterior/state.py::PosteriorState.init_from_dict", "fortuna/output_calib_model/state.py::OutputCalibState.init_from_dict", "fortuna/calib_model/state.py::CalibState.init_from_dict", "fortuna/prob_model/posterior/name_to_posterior_state.py::NameToPosteriorState"]}
{"id": "C87", "title": "Models calibrated by a loss", "statement": "For a network without state, calibration by a loss is descent on that loss: every step updates the parameters by the gradient of w -> loss_fn(outputs of the network in training mode, targets), over all batches in order, epoch by epoch. Validation evaluates the loss in evaluation mode, with the network state if there is one. Calibration starts from the checkpoint if given, else from the current state if asked for, else from scratch; it is refused if a loader fails its data check, if the state is to be dumped without a directory, or if the current state is asked for before there is one. Classifier data must be non-empty and show exactly as many labels as the network has outputs; regression networks must have twice as many outputs as the targets have dimensions; refused data raise a ValueError. Predicting and saving need a calibrated or loaded state. False of the code: networks with state (batch normalisation) cannot be calibrated at all; precomputed outputs raise; data in which a class does not occur are refused; max_grad_norm of the configuration is ignored.", "quantifier": "all networks, losses, optimizers, data sets, epochs and configurations", "why_tests_cant": "Every network with state fails, whatever the data; the loop is unbounded.", "anchors": ["fortuna/calib_model/base.py::CalibModel._calibrate", "fortuna/calib_model/base.py::CalibModel._init_state", "fortuna/calib_model/loss.py::Loss.__call__", "fortuna/calib_model/calib_model_calibrator.py::CalibModelCalibrator", "fortuna/calib_model/classification.py::CalibClassifier._check_output_dim", "fortuna/calib_model/regression.py::CalibRegressor._check_output_dim"]}
{"id": "C88", "title": "Data-parallel training", "statement": "On d devices a batch is refused unless its size is a multiple of d. Without dynamic scaling the replicas hold the same parameters and optimizer state after any number of steps, and for the log-joint loss of a network without state and randomness the returned state is the one that a single device computes on the same batches, whatever the optimizer, gradient clipping and accumulation. The checkpoint has the same parameters as the returned state. Random keys are different for different devices and steps. Training metrics are those of the whole batch, and the validation loss and validation metrics that average over rows are those of one device. False of the code: in half precision (dynamic scale) gradients are never averaged, so that the returned parameters come from the first device's rows only; the returned network state is that of the first device and not the average that the checkpoint has; validation metrics that do not average over rows, such as the root mean squared error, are wrong.", "quantifier": "all numbers of devices, losses, optimizers, data, numbers of steps", "why_tests_cant": "CI has one device; equality with a single device for every optimizer and run length.", "anchors": ["fortuna/training/trainer.py::MultiDeviceMixin", "fortuna/training/trainer.py::MultiDeviceMixin._sync_state", "fortuna/training/trainer.py::MultiDeviceMixin.on_train_end", "fortuna/training/trainer.py::MultiDeviceMixin.validation_step", "fortuna/training/trainer.py::TrainerABC.training_step"]}
{"id": "C89", "title": "Training and calibrating a probabilistic model", "statement": "train refuses data that do not fit the model before anything is fitted, then fits the posterior, and then calibrates it if there is a calibration loader with at least one batch; if calibration raises, the fitted posterior stays. Calibration starts from the stored calibration parameters (of the first state of an ensemble) or from the restored ones, and on success replaces exactly the calibration parameters and calibration state of every posterior state, leaving all other attributes alone. Without a calibrator nothing happens; an unfitted posterior is refused. On the CPU the precomputed outputs of sample s come from the same posterior sample on all batches, and the size is the number of data points. The objective is the log of the ensemble mean of the likelihood of the calibrated outputs (rows raised to n/B); it lies between the smallest and largest log-likelihood of the ensemble and is at least their mean; with one sample its mean over equal batches is the log-likelihood of the data. A checkpoint written by a calibration run gives back its calibration parameters and state. False of the code: a calibration can be resumed from a directory with a dumped state (the parameters of the network become its calibration parameters); with several samples minibatch objectives do not average to the objective on all the data; on accelerators the size is devices times batches, which can reverse which of two calibrations is preferred, and each device uses its own posterior sample within one ensemble member; an empty calibration loader is skipped silently; calibration and validation data must show every class.", "quantifier": "all posteriors (in memory, on disk, ensembles), calibrators, data, samples, device counts", "why_tests_cant": "State preservation for all posteriors and values; size error appears only on accelerators.", "anchors": ["fortuna/prob_model/base.py::ProbModel.train", "fortuna/prob_model/base.py::ProbModel._calibrate", "fortuna/prob_model/classification.py::ProbClassifier.train", "fortuna/prob_model/classification.py::ProbClassifier.calibrate", "fortuna/prob_model/classification.py::ProbClassifier._check_output_dim", "fortuna/prob_model/regression.py::ProbRegressor._check_output_dim", "fortuna/prob_model/predictive/base.py::Predictive._batched_log_joint_prob", "fortuna/prob_model/predictive/base.py::Predictive._sample_outputs_loader"]}
{"id": "C90", "title": "Built-in networks", "statement": "A multi-layer perceptron with as many activations as hidden layers is the feed-forward network (affine map and activation for every hidden layer, then an affine map) and has output_dim outputs; networks with different numbers of widths and activations, or without hidden layers, are refused. With a positively homogeneous last activation, dropout acts on the activations of every hidden layer. A residual network with equal widths adds the activated affine map of the features to the features at every layer. In (wide) residual networks residual and output of every block have the same shape for every image size, channels and filters; a residual network has num_filters*2^(stages-1) features (four times that with bottlenecks) for every image size; LeNet, CNN and wide residual networks have the stated number of features, positive exactly for images of at least 16, 4 and 29 pixels. Constant and hyper-parameter models return one copy of the parameters per input whatever the inputs. Dummy inputs have one row of the data's shape. False of the code: dropout of the last hidden layer comes before its activation, so dropped units still contribute if the activation is not zero at zero; the first activation of a residual network is never used; widths one and n are silently broadcast; wide residual networks ignore activation, and a residual network does so after its first convolution; 28 x 28 images leave a wide residual network without features, a depth below ten leaves it without blocks. The output size of unpadded convolutions and pooling is the number of window positions inside the padded input.", "quantifier": "all depths, widths, activations, weights, inputs and image sizes", "why_tests_cant": "Architectures are tested at one size; claims hold for all depths, widths and image sizes.", "anchors": ["fortuna/model/mlp.py::MLPDeepFeatureExtractorSubNet", "fortuna/model/mlp.py::DeepResidualFeatureExtractorSubNet", "fortuna/model/mlp.py::MLP", "fortuna/model/mlp.py::DeepResidualNet", "fortuna/model/resnet.py::DeepFeatureExtractorSubNet", "fortuna/model/resnet.py::ResNetBlock", "fortuna/model/resnet.py::BottleneckResNetBlock", "fortuna/model/wideresnet.py::WideResnetGroup", "fortuna/model/wideresnet.py::WideResnetBlock", "fortuna/model/wideresnet.py::DeepFeatureExtractorSubNet", "fortuna/model/lenet.py::LeNet5DeepFeatureExtractorSubNet", "fortuna/model/cnn.py::CNNHiddenLayers", "fortuna/model/constant.py::ConstantModel", "fortuna/model/hyper.py::HyperparameterModel", "fortuna/model/scalar_constant.py::ScalarConstantModel", "fortuna/utils/data.py::get_input_shape", "fortuna/utils/data.py::get_inputs_from_shape"]}
{"id": "C91", "title": "Entry points of the multivalid methods", "statement": "calibrate of the iterative multivalid methods (multicalibration, binary, top-label, batch MVP), called without test data, succeeds exactly on documented arguments: at least one round, eta and split in (0,1], min_prob_b in [0,1] or automatic, a positive number of buckets (and of classes), a known patch type, known bucket types, scores of the right dimension, type and range, boolean group matrix, values of the right dimension in [0,1], coverage in [0,1] for batch MVP (where multiplicative patches raise NotImplementedError exactly when a patch is to be computed, that is if some cell of the first round has probability at least min_prob_b, and otherwise return no patch); then the calibration loop runs on the first ceil(split*n) rows of the permuted data and is validated on the others. Test values returned by calibrate are those of apply_patches with the patches it stored; with a stored patch, apply_patches replays the patches on the given or initial values and returns values in [0,1]. Initial binary values are in [0,1] if no normal variate exceeds 50 in size, initial top-label rows are probability vectors if the raw entries stay within [-2,2] and do not all vanish. Top-label score rows have their only one at a target in range. calibration_error of methods other than batch MVP needs no values and returns one number per group and class. The sets of BatchMVPConformalClassifier are, per row, the ascending classes with score at most the threshold, growing with the threshold; wrong dimensions or sizes are refused. Binary targets with a single label are refused. With well-formed test groups and values of equal length given besides groups and values, calibrate succeeds on the same arguments with the same status and patches and returns the test values with the stored patches applied; optional arguments are consistent exactly if no test data are given or test groups come with groups and test values with values. A refused call raises ValueError, except ZeroDivisionError (no buckets), NotImplementedError (multiplicative patches in batch MVP) and TypeError (test groups and values of different lengths). The automatic min_prob_b is one over buckets times score columns, there is one group per column of groups, a single one without groups. False of the code: with groups only and no stored patch apply_patches returns None; top-label targets out of range are accepted with a zero score row; calibration_error of batch MVP without thresholds raises a TypeError; patched top-label rows need not sum to one. With more rows of groups and values than scores, the rows in excess are ignored without notice: calibrate returns what it returns without them.", "quantifier": "all methods, arguments, data, permutations, normal variates and patches", "why_tests_cant": "Tests call the methods with a few valid arguments; acceptance is an equivalence over all arguments.", "anchors": ["fortuna/conformal/multivalid/base.py::MultivalidMethod", "fortuna/conformal/multivalid/iterative/base.py::IterativeMultivalidMethod.calibrate", "fortuna/conformal/multivalid/iterative/base.py::IterativeMultivalidMethod.apply_patches", "fortuna/conformal/multivalid/iterative/base.py::IterativeMultivalidMethod.calibration_error", "fortuna/conformal/multivalid/iterative/batch_mvp.py::BatchMVPConformalMethod", "fortuna/conformal/multivalid/iterative/classification/binary_multicalibrator.py::BinaryClassificationMulticalibrator", "fortuna/conformal/multivalid/iterative/classification/top_label_multicalibrator.py::TopLabelMulticalibrator", "fortuna/conformal/multivalid/iterative/regression/batch_mvp.py::BatchMVPConformalClassifier.conformal_set"]}
{"id": "C92", "title": "Loaders of inputs and loaders of targets", "statement": "Chopping, splitting or sampling (same seed) the inputs loader or the targets loader of a data loader gives, batch by batch, the inputs and the targets of the chopped, split or sampled data loader, so that inputs and targets processed separately stay matched row by row; split(n) cuts the rows after exactly n; the arrays and sizes read from the derived loaders are those of the data loader; a transformed loader passes to each batch the status left by the earlier ones and yields exactly the non-empty results. False as documented: TargetsLoader.from_data_loader returns an object that can be iterated but has no size, length or loader method; a loader made by from_iterable from an iterator is empty from its second pass on.", "quantifier": "all loaders, batch sizes (ragged ones included), split points, sample sizes, mask sequences, divisors and stateful transformations", "why_tests_cant": "Two separate pieces of code must agree for all batch layouts and all random masks; a unit test uses one layout.", "anchors": ["fortuna/data/loader/array_loaders.py::InputsLoader", "fortuna/data/loader/array_loaders.py::TargetsLoader", "fortuna/data/loader/base.py::BaseInputsLoader.from_data_loader", "fortuna/data/loader/base.py::BaseTargetsLoader.from_data_loader", "fortuna/data/loader/utils.py::IterableData.transform_inputs_or_targets_loader", "fortuna/data/loader/utils.py::IterableData.from_iterable"]}
{"id": "C93", "title": "Posterior samples are stored states", "statement": "Sampling a MAP posterior returns the stored state's parameters, network state and calibration and fails exactly when nothing is stored. A sample of a deep ensemble or of stored Monte Carlo samples is one stored state as a whole, so that parameters, network state and calibration never come from different members; replacing a member changes exactly the draws of its slot; the mean of any function of k independent samples is unbiased for its mean over the members; members saved beyond the size of the loading approximator never matter; pulling a slot returns what get returns and leaves the other slots. False: a directory with fewer members than the approximator expects is accepted at loading and fails only when a missing member is drawn.", "quantifier": "all states, attributes, numbers of members, slots, sample counts and functions of a sample", "why_tests_cant": "Random draws: a test sees some of the slots; mixing parts of two members or an off-by-one range would be visible only with particular draws.", "anchors": ["fortuna/prob_model/posterior/map/map_posterior.py::MAPPosterior.sample", "fortuna/prob_model/posterior/deep_ensemble/deep_ensemble_posterior.py::DeepEnsemblePosterior.sample", "fortuna/prob_model/posterior/sgmcmc/sgmcmc_posterior.py::SGMCMCPosterior.sample", "fortuna/prob_model/posterior/posterior_multi_state_repository.py::PosteriorMultiStateRepository.pull", "fortuna/prob_model/posterior/deep_ensemble/deep_ensemble_posterior.py::DeepEnsemblePosterior.load_state"]}
{"id": "C94", "title": "Losses and metrics reported by the trainers", "statement": "With pairwise different metric names every metric is reported with its value and nothing else; the loss is reported under loss and val_loss unless a metric or logged value is called loss; what an epoch reports under a key is the mean over its batches, which for a row-averaging metric and equal batches is the value on the whole data set; an empty loader raises. Flow trainers on one device report the average over samples and rows. False: metrics with one name (two lambdas) are merged and the last wins; a metric called loss replaces the loss, and early stopping follows it; a smaller last batch is overweighted; flow training metrics with at least two devices and two samples compare predictions with other rows' targets; ADVI training on several devices ends with an exception unless there is one device and one parameter array.", "quantifier": "all lists of metrics, predictions, targets, numbers of batches, batch sizes, devices, samples and parameter arrays", "why_tests_cant": "A unit test with one metric, one device or one sample cannot distinguish a transposed reshape or a merged key from the right one.", "anchors": ["fortuna/training/trainer.py::TrainerABC.compute_metrics", "fortuna/training/trainer.py::TrainerABC.training_step_end", "fortuna/training/trainer.py::TrainerABC._get_mean_losses_and_metrics", "fortuna/prob_model/posterior/map/map_trainer.py::MAPTrainer.validation_step", "fortuna/prob_model/posterior/normalizing_flow/normalizing_flow_trainer.py::NormalizingFlowTrainer.training_step_end", "fortuna/prob_model/posterior/normalizing_flow/advi/advi_trainer.py::MultiDeviceADVITrainer.on_train_end"]}
{"id": "C95", "title": "Progress of a whole multicalibration run", "statement": "With additive patches, eta in (0,1] and scores in [0,1], if calibrate stored k patches then the calibration errors of the patched cells add up to at most the removed squared error over eta(2-eta)n; hence before one of the k patches every cell with at least min_prob_b of the data had calibration error at most (initial squared error)/(eta(2-eta) k n), and if every round still found a cell with error above alpha then k is at most n_classes/(eta(2-eta) alpha). Each stored patch that changes a validation row removes more than the fraction rtol of the validation loss and leaves it above atol, so with k such patches the loss is at most (1-rtol)^k of the initial one and k*rtol*atol is less than the initial loss minus atol. False of the code: patches whose cell holds no validation row are stored with no progress on the validation loss, whatever rtol is.", "quantifier": "all data sets, grids, tolerances, numbers of rounds", "why_tests_cant": "A convergence rate over all data sets and all lengths of runs.", "anchors": ["fortuna/conformal/multivalid/iterative/base.py::IterativeMultivalidMethod.calibrate", "fortuna/conformal/multivalid/iterative/multicalibrator.py::Multicalibrator._calibration_error", "fortuna/conformal/multivalid/iterative/multicalibrator.py::Multicalibrator._get_patch"]}
{"id": "C96", "title": "Configurations and generators shared through default arguments", "statement": "A configuration with an optimizer of its own, which is passed to no sampler and to no SNGP fit, gives every later fit the method and the callbacks it was made with, whatever else is configured and fitted in between; a model made with a prior of its own draws exactly the keys fixed by its seed, in order, whatever other models are made and used. A sampler never uses the method or the callbacks of the configuration it is given. False of the code: FitConfig() and train's default argument share one FitOptimizer, and a fit of SGHMC or cyclical SGLD assigns its integrator to it, so that every later fit with a default optimizer runs the sampler's integrator instead of Adam, which to first order raises the loss of MAP; every SNGP fit leaves one more reset callback in the configuration it is given; models made without a prior share one, which draws from the generator of the model made last. Every fit of a sampler makes its own integrator, which no other fit shares. After the import both train methods start with Adam and no callbacks; also false: that the default configurations of the two are independent (they share the optimizer).", "quantifier": "all histories of creating optimizers, configurations, priors and models, of fits and of draws", "why_tests_cant": "The effect needs two models fitted in one process, in a particular order; each test in isolation passes.", "anchors": ["fortuna/prob_model/fit_config/base.py::FitConfig.__init__", "fortuna/prob_model/fit_config/optimizer.py::FitOptimizer", "fortuna/prob_model/posterior/sgmcmc/sghmc/sghmc_posterior.py::SGHMCPosterior.fit", "fortuna/prob_model/posterior/sgmcmc/cyclical_sgld/cyclical_sgld_posterior.py::CyclicalSGLDPosterior.fit", "fortuna/prob_model/posterior/sngp/sngp_posterior.py::SNGPPosterior.fit", "fortuna/prob_model/base.py::ProbModel.__init__"]}
{"id": "C97", "title": "What a fit makes of its configuration", "statement": "MAP, ADVI and every member of a deep ensemble honour the whole configuration: the optimizer is never given a gradient of norm above max_grad_norm, one update is made per gradient_accumulation_steps batches, with validation after every epoch training stops exactly when the monitored value has exhausted the patience, and all epochs are run without early stopping. The user's callbacks are run. If a directory is given, its latest checkpoint after the fit is the state training ended with, with or without dump_state and whatever the directory held before; the posterior's state is that state, kept on disk by MAP, ADVI, SWAG and ensembles exactly if dump_state is set. Without early stopping a sampler whose constructor accepts its numbers collects exactly n_samples samples. The status of a preliminary run of MAP is returned by ADVI, SWAG, Laplace and SGHMC exactly if there was one. False of the code: SWAG and the samplers neither clip nor accumulate gradients and SWAG ignores the patience (it says so); samplers ignore the user's callbacks; no fit can monitor a metric to be maximised: if it never falls below its first value by more than min_delta, training stops after patience + 2 epochs; samplers monitor the log joint probability as if it were to be minimised, so that an improving chain is stopped after patience + 2 epochs and slots of samples stay empty although the constructor accepted; cyclical SGLD and ensembles lose the status of the preliminary MAP; Laplace and the samplers keep the state on disk as soon as a directory is given, without dump_state.", "quantifier": "all configurations, losses, gradients, optimizers, data sets, numbers of epochs and contents of the directory", "why_tests_cant": "Needs long runs under every combination of method and option; an ignored option raises nothing.", "anchors": ["fortuna/prob_model/posterior/map/map_posterior.py::MAPPosterior.fit", "fortuna/prob_model/posterior/normalizing_flow/advi/advi_posterior.py::ADVIPosterior.fit", "fortuna/prob_model/posterior/swag/swag_posterior.py::SWAGPosterior.fit", "fortuna/prob_model/posterior/laplace/laplace_posterior.py::LaplacePosterior.fit", "fortuna/prob_model/posterior/deep_ensemble/deep_ensemble_posterior.py::DeepEnsemblePosterior.fit", "fortuna/prob_model/posterior/sgmcmc/sghmc/sghmc_posterior.py::SGHMCPosterior.fit", "fortuna/prob_model/posterior/sgmcmc/cyclical_sgld/cyclical_sgld_posterior.py::CyclicalSGLDPosterior.fit", "fortuna/prob_model/fit_config/monitor.py::FitMonitor"]}
{"id": "C98", "title": "Entropies of regression predictions", "statement": "For regression with the same random number generator, entropy = aleatoric entropy + epistemic entropy at every input; the aleatoric entropy is the mean over posterior samples of the Gaussian entropy with that sample's variances, up to the deviation from 1 of the mean squared noise, so the predicted means play no role, and a temperature T adds log(T)/2 per component; the epistemic entropy is at most log(number of posterior samples) whatever targets are drawn, and zero when the samples agree. False: the epistemic entropy is non-negative (two samples, a target far out); false: the decomposition holds for calls without a generator, which draw their own noise.", "quantifier": "all numbers of posterior and target samples, outputs, noise and dimensions", "why_tests_cant": "Inequalities and identities over all outputs and noise.", "anchors": ["fortuna/prob_model/predictive/regression.py::RegressionPredictive.aleatoric_entropy", "fortuna/prob_model/predictive/regression.py::RegressionPredictive.epistemic_entropy", "fortuna/prob_model/predictive/regression.py::RegressionPredictive.entropy"]}
{"id": "C99", "title": "Hallucination detector from fit to predictions", "statement": "When texts can be scored and grouped and the quantile threshold is in [0,1], fit of the hallucination detector succeeds exactly if all targets are 0 or 1, both occur, and all scores lie in [0,1]. After a successful fit, predict_proba on the examples of the fit (after balancing) with the same batch size returns one number in [0,1] per text; if the dimension reduction transforms the data it was fitted on as it did when fitting, the squared error of the calibrated probabilities is at most that of the raw scores, on the calibration part of the examples and on the validation part. The clustering models are fitted on rows shifted and scaled to mean 0 and mean square 1 in every column, the first of those with the least BIC on these rows is kept, and later rows are shifted and scaled alike. If language model, reduction and clustering treat every row on its own, the probability of a text depends neither on the other texts nor on the batch size. predict marks exactly the texts of probability at least 1/2. fit stores at most 1000 patches, and reports convergence only if the last recorded loss is at most 1/10000 or at most a millionth below the one before. Before any fit predict_proba raises; a detector that loads what another saved predicts the same. Too few contexts are refused, and so are too many unless the batch size divides the number of texts. Balancing appends to the caller's lists; a second balanced fit on these lists appends nothing. False of the code: contexts in excess are ignored without notice if the batch size divides the number of texts; a fit whose targets are refused (a single label), or whose grouping fails, destroys an earlier fit: calibrated predictions raise afterwards (TypeError, AttributeError).", "quantifier": "all language models, scoring functions, reductions, clustering models, texts, contexts, targets, batch sizes, thresholds, draws and permutations", "why_tests_cant": "Tests run one small model on a few sentences; they cannot show that calibration never hurts on the fitted examples, that predictions are independent of batching, or what is left behind by a failed fit", "anchors": ["fortuna/hallucination/base.py::HallucinationMulticalibrator.fit", "fortuna/hallucination/base.py::HallucinationMulticalibrator.predict_proba", "fortuna/hallucination/base.py::HallucinationMulticalibrator.predict", "fortuna/hallucination/base.py::HallucinationMulticalibrator.save", "fortuna/hallucination/base.py::HallucinationMulticalibrator.load", "fortuna/hallucination/grouping/clustering/base.py::GroupingModel"]}
{"id": "C100", "title": "Buckets of the multivalid methods", "statement": "With n_buckets = n, a prediction is in the '>=' or '<=' bucket of v exactly if some number within 1/(2n) of it satisfies the documented relation, and in the '=' bucket exactly if it is less than 1/(2n) from v; for predictions on the grid linspace(0, 1, n) the buckets are exactly {f = v}, {f >= v}, {f <= v}; no prediction is in two '=' buckets; with the default bucket types every row of every group is in a cell of the search. False of the code: for every n >= 2 the middle between two neighbouring bucket values is in no '=' bucket, and patches of '=' buckets never change such a prediction.", "quantifier": "all n_buckets, predictions, groups and sequences of patches", "why_tests_cant": "ties and gaps of measure near zero are not hit by random test arrays", "anchors": ["fortuna/conformal/multivalid/iterative/base.py::IterativeMultivalidMethod._get_b", "fortuna/conformal/multivalid/iterative/base.py::IterativeMultivalidMethod._get_bucket_type_indices"]}
{"id": "C101", "title": "Samples of SGHMC and cyclical SGLD are the states of their chain, with and without freezing, saved, loaded and continued", "statement": "A fit with SGHMC or cyclical SGLD whose run is long enough succeeds for every freeze function that labels at least one parameter trainable, in memory and in a directory. Draw i of `sample` gives, value by value, all parameters that training would have returned after the i-th sampled step (for SGHMC step burnin + (i+1)*thinning): the sampled values of trainable parameters and the initial values of frozen ones, with the mutable state of that step. Loading the directory gives the same samples, in whatever order the paths of the trainable parameters are decoded and for any smaller number of samples. A further fit from the current state starts from the last sample, one that restores the directory from the end of the chain. `save_state` changes no sample. A run that is too short is refused. False of the code: that every slot then holds a sample of this run (after early stopping reading the remaining slots raises, or gives the states an earlier run left in the directory), and that `save_state` writes to the directory it is given (after a fit in memory nothing is written, and loading raises).", "quantifier": "all parameter trees, freeze functions, training steps, numbers of samples, sampling rules of the two callbacks, checkpoint limits >= 1, previous directory contents without files in place of directories", "why_tests_cant": "A test runs one chain of one model; it cannot compare every sample with the chain for every tree, freeze function, directory history and order of decoded paths.", "anchors": ["fortuna/prob_model/posterior/sgmcmc/sghmc/sghmc_posterior.py::SGHMCPosterior.fit", "fortuna/prob_model/posterior/sgmcmc/sgmcmc_posterior.py::SGMCMCPosterior", "fortuna/prob_model/posterior/sgmcmc/sgmcmc_posterior_state_repository.py::SGMCMCPosteriorStateRepository", "fortuna/prob_model/posterior/sgmcmc/sgmcmc_sampling_callback.py::SGMCMCSamplingCallback.training_step_end", "fortuna/training/trainer.py::TrainerABC.on_train_start"]}
{"id": "C102", "title": "Coverage of jackknife+, jackknife-minmax and CV+ on exchangeable data", "statement": "For any learning algorithm that does not depend on the order of its training data, and any exchangeable data of n training points and one test point (n >= 1, error e in [0,1]): the jackknife+ interval, built from the leave-one-out models, contains the test target with probability at least 1 - (2*ceil(e(n-1)) + 1)/(n+1); the jackknife-minmax interval with probability at least 1 - (ceil(e(n-1)) + 1)/(n+1); the CV+ interval of K folds of m points (n = Km) with probability at least 1 - (2*ceil(e(n-1)) + m)/(n+m). On any data whatsoever, letting each point be the test point in turn, at most these many points are missed. Up to 3/(n+1) these are the guarantees of the documentation. False of the code: the documented guarantees themselves. Jackknife-minmax misses the target of some exchangeable data with probability above e for every n >= 1 and every e < 1/2 (its bound above is attained); jackknife+ misses with probability above 2e whenever e(n+3) < 1. The cause is that plain interpolated quantiles of the n values are taken.", "quantifier": "all learning algorithms symmetric in the data (measurable, for the probability statements), all exchangeable laws, all n >= 1, all numbers and sizes of folds, all errors in [0,1]", "why_tests_cant": "A coverage guarantee is a statement about all data distributions and all learning algorithms; a test estimates the coverage of one of them with sampling noise, and the worst case is one that random data do not produce.", "anchors": ["fortuna/conformal/regression/jackknifeplus.py::JackknifePlusConformalRegressor.conformal_interval", "fortuna/conformal/regression/jackknife_minmax.py::JackknifeMinmaxConformalRegressor.conformal_interval", "fortuna/conformal/regression/cvplus.py::CVPlusConformalRegressor.conformal_interval", "fortuna/conformal/regression/base.py::ConformalRegressor.is_in"]}
{"id": "C103", "title": "ADVI from fit to samples, load and further fits", "statement": "Without freezing, the state of an ADVI fit holds the mean and log-standard-deviation of every array of the parameters, and a sample has the structure of the parameters and holds at every array mean + exp(log_std) * noise, each number of the base noise being used once. A posterior that loads the state draws the same samples from the same noise; with a selection of parameters, whatever the order in which it is read from the state, a sample after loading holds at every selected array its own mean + exp(log_std) * noise and leaves all else. A further fit from the state starts from the stored means and log-standard-deviations (without freezing both times, with the same or a smaller selection, or freezing only the second time). False of the code: a further fit that trains an array frozen in the first one raises, and a further fit without freezing after one with freezing never completes.", "quantifier": "all parameter trees, vectors of means and log-standard-deviations, noise, selections and orders of the selection", "why_tests_cant": "Tests fit small models with one layout of parameters and check that sampling returns something; no test compares samples before and after loading, or the start of a further fit with the stored state, for arbitrary trees and selections.", "anchors": ["fortuna/prob_model/posterior/normalizing_flow/advi/advi_posterior.py::ADVIPosterior.fit", "fortuna/prob_model/posterior/normalizing_flow/advi/advi_posterior.py::ADVIPosterior.load_state", "fortuna/prob_model/posterior/normalizing_flow/advi/advi_posterior.py::ADVIPosterior.sample", "fortuna/prob_model/posterior/normalizing_flow/advi/advi_posterior.py::ADVIPosterior._init_map_state", "fortuna/prob_model/posterior/normalizing_flow/advi/advi_posterior.py::ADVIPosterior._get_unravel", "fortuna/prob_model/posterior/normalizing_flow/advi/advi_trainer.py::ADVITrainer._unravel_params", "fortuna/prob_model/posterior/normalizing_flow/advi/advi_architecture.py::ADVIArchitecture.init_params"]}
{"id": "C104", "title": "Adaptive and simple prediction sets, from probabilities to sets", "statement": "The adaptive score of a label is the sum of the probabilities of all more likely labels, of the equally likely labels with a larger index, and of the label itself; hence with non-negative probabilities less likely labels have larger scores, every score lies between the label's probability and the row's sum, and the first least likely label scores exactly that sum. From probabilities, targets and error, the split classifiers return one set per test row, with label j exactly if fewer than (1-error)(n+1) validation points score more than j; the CV+ classifiers return for fold f and test row i, at position f*inputs+i, the labels for which this holds with the scores of all folds; different numbers of rows and targets and an empty list of folds are refused. So a label is in a set only together with all less likely labels, and the adaptive classifier's set always contains the least likely label if the error is below 1. False as expected: that the sets consist of the most likely labels.", "quantifier": "all probability matrices (rows of equal length, targets in range), all targets, all errors, all numbers of folds", "why_tests_cant": "The order in which the sort, the reversal and the inverse permutation break ties, and which labels the sets can and cannot contain, concern all probability vectors; a test compares a few stored sets, which look plausible either way.", "anchors": ["fortuna/conformal/classification/adaptive_prediction.py::score_fn", "fortuna/conformal/classification/simple_prediction.py::score_fn", "fortuna/conformal/classification/base.py::SplitConformalClassifier.get_scores", "fortuna/conformal/classification/base.py::SplitConformalClassifier.conformal_set", "fortuna/conformal/classification/base.py::CVPlusConformalClassifier.get_scores"]}
{"id": "C105", "title": "Coverage of conformal classification from exchangeable data", "statement": "For any model and any exchangeable data of n labelled calibration points and a test point, the set that AdaptivePredictionConformalClassifier or SimplePredictionConformalClassifier returns for the test input contains its label, according to is_in, with probability at least 1-error; if no two scores are equal, with probability at most ceil((1-error)(n+1))/(n+1). False of the code: any such guarantee for the CV+ classifiers. With n folds of one point and an error below 1/(n+1) every set contains all labels; with any larger error there are an algorithm symmetric in its training data and exchangeable data for which each of the returned sets contains the test label with probability at most 1/2, whatever n.", "quantifier": "all models (measurable), all exchangeable laws, all n, all numbers of classes, all errors", "why_tests_cant": "Coverage is a probability over all data sets; tests evaluate single data sets. The failure of CV+ needs an unstable algorithm, which no example uses.", "anchors": ["fortuna/conformal/classification/base.py::SplitConformalClassifier.conformal_set", "fortuna/conformal/classification/base.py::CVPlusConformalClassifier.conformal_set", "fortuna/conformal/classification/base.py::ConformalClassifier.is_in", "fortuna/conformal/classification/adaptive_prediction.py::score_fn", "fortuna/conformal/classification/simple_prediction.py::score_fn"]}
{"id": "C106", "title": "Random Fourier features estimate an RBF kernel", "statement": "With the default initial weights (independent standard normal) and biases (uniform on [0, 2 pi]) and a kernel scale l != 0, the inner product of the random Fourier features of two inputs has mean n/2 * s^2 * exp(-|x-x'|^2/(2 l^2)), for n features and feature scale s, and differs from that mean by eps or more with probability at most n s^4/eps^2. With feature_scale=None the mean is the radial basis function kernel of length scale l itself, and the deviation is at most eps with probability at least 1-4/(n eps^2); with the default feature_scale=1 the mean is n/2 times the kernel. The probability of a deviation of eps or more is also at most 2 exp(-eps^2/(2 n s^4)), so with feature_scale=None all inner products of the features of m inputs are within eps of the kernel at once with probability at least 1 - 2 m^2 exp(-n eps^2/8). The kernel is 1 exactly for equal inputs and decreases with their distance.", "quantifier": "all numbers of features, input dimensions, inputs, kernel scales != 0, feature scales, eps > 0", "why_tests_cant": "A statement about the distribution of a random initialisation; a test sees finitely many seeds.", "anchors": ["fortuna/model/utils/random_features.py::RandomFourierFeatures.__call__", "fortuna/model/utils/random_features.py::RandomFourierFeatures.setup"]}
{"id": "C107", "title": "Model editors in the model managers", "statement": "Without a model editor all model managers return the outputs of the model. With one, regression and Hugging Face classification apply its transformation exactly once to the outputs of the model, show it the model's own forward pass and parameters, and pass errors on; classification does so for editors that do not unfreeze the parameters. False of the code: the probit editor (any editor that unfreezes its parameters) always raises in classification and with SNGP, since the manager has unfrozen them already; with SNGP an editor is applied twice, both times to the outputs of the feature extractor.", "quantifier": "all models, editors, parameters, inputs", "why_tests_cant": "Concerns all editors and models; no test combines the probit editor or SNGP with a model editor.", "anchors": ["fortuna/model/model_manager/classification.py::ClassificationModelManager.apply", "fortuna/model/model_manager/classification.py::SNGPClassificationModelManagerMixin.apply", "fortuna/model/model_manager/regression.py::RegressionModelManager.apply", "fortuna/model/model_manager/transformers/classification.py::HuggingFaceClassificationModelManager.apply", "fortuna/model_editor/probit.py::ProbitModelEditor", "fortuna/utils/probit.py::sequential_probit_scaling"]}
{"id": "C108", "title": "What SGHMC and SGLD samples of a Gaussian posterior are distributed like", "statement": "Let the posterior be Gaussian with independent coordinates of means mu and variances sigma^2 (its log density has gradient -(x-mu)/sigma^2), with identity preconditioner, no momentum resampling and a constant step size h > 0, momentum decay d in [0,1) (d = 0 is SGLD), and independent standard normal noise for different keys. Then every coordinate of the sample after t steps is normal, with mean and variance given by a linear recursion; if h < 2(1+d) sigma^2 it converges in distribution, from any start, to the normal distribution of mean mu and variance sigma^2/(1 - h/(2(1+d) sigma^2)), and this variance tends to sigma^2 as h tends to 0. False of the code: that with a constant step size the samples follow the posterior: their variance in the long run exceeds sigma^2 by the factor 1 + h/(2(1+d) sigma^2 - h), for every h, and for SGLD with h >= 2 sigma^2 it grows beyond any bound.", "quantifier": "all means, variances > 0, momentum decays in [0,1), step sizes h > 0, starts, keys, numbers of steps; every bounded continuous test function", "why_tests_cant": "A run gives finitely many correlated samples; the distribution after infinitely many steps, and that it is never exactly the posterior, is a statement about limits and probabilities.", "anchors": ["fortuna/prob_model/posterior/sgmcmc/sghmc/sghmc_integrator.py::sghmc_integrator", "fortuna/prob_model/posterior/sgmcmc/sghmc/sghmc_posterior.py::SGHMCPosterior.fit", "fortuna/training/trainer.py::TrainerABC.training_step", "fortuna/prob_model/posterior/sgmcmc/cyclical_sgld/cyclical_sgld_integrator.py::cyclical_sgld_integrator"]}
{"id": "C109", "title": "What the predictive statistics estimate", "statement": "If posterior samples drawn with different keys are independent with the posterior's law, then: the predictive mean and the aleatoric variance are unbiased and off by eps or more with probability at most Var/(n eps^2), and all class probabilities are within eps of their posterior expectations with probability at least 1-1/(n eps^2), whatever the number of classes. exp(log_prob) is an unbiased estimate of the predictive density with the same kind of bound. The average log_prob lies between the expected log-likelihood and the logarithm of the predictive density and does not decrease with the number of samples; the average aleatoric entropy is exact, while the average entropy and epistemic entropy are at most those of the posterior and do not decrease with the number of samples. False as expected: that log_prob, the epistemic variance and the total variance are unbiased. The average log_prob is strictly too small unless all models agree; the average epistemic variance is (1-1/n) times the posterior variance of the means, so the average total variance falls short of the predictive variance by Var/n; with one sample, epistemic variance and epistemic entropy are 0 whatever the posterior.", "quantifier": "all posteriors, all likelihoods with finite moments, all numbers of samples n >= 1, all eps > 0, all numbers of classes", "why_tests_cant": "Statements about averages and probabilities over the random key and about the exact posterior; a test compares shapes or one seed.", "anchors": ["fortuna/prob_model/predictive/base.py::Predictive._batched_mean", "fortuna/prob_model/predictive/base.py::Predictive._batched_aleatoric_variance", "fortuna/prob_model/predictive/base.py::Predictive._batched_epistemic_variance", "fortuna/prob_model/predictive/base.py::Predictive.variance", "fortuna/prob_model/predictive/base.py::Predictive._batched_log_prob", "fortuna/prob_model/predictive/classification.py::ClassificationPredictive.entropy", "fortuna/prob_model/predictive/classification.py::ClassificationPredictive.aleatoric_entropy", "fortuna/prob_model/predictive/classification.py::ClassificationPredictive.epistemic_entropy"]}
{"id": "C110", "title": "How Laplace, ADVI and SWAG samples are distributed, against the exact Gaussian posterior", "statement": "With independent standard normal noise, the entries of a Laplace sample are independent normals with the stored means and computed standard deviations, those of an ADVI sample independent normals with the stored means and standard deviations exp(log_std)*exp(log_std_base), and a SWAG sample is Gaussian with the stored mean and covariance half the diagonal of std^2 plus the sum of the outer products of the r deviations divided by 2r. For a regression whose means are affine in the parameters, with fixed log-variances and an isotropic Gaussian prior: there is exactly one MAP estimate; the normalised exp(log joint) is exactly the Gaussian with that mean and precision P = prior precision + data term; Laplace at the MAP uses the variance 1/P_ii for parameter i, whatever the batches; and ADVI's loss, in expectation over its base samples, is minimised exactly by the MAP as mean and the same variances 1/P_ii. False as expected: that either recovers the posterior's variances even in this case. The variance used is at most the posterior variance, with equality exactly if the parameter is uncorrelated with all others (two parameters seen through their sum: 1/2 instead of 2/3).", "quantifier": "all dimensions, data, features, log-variances, prior variances, batchings; all variational parameters, numbers of base samples >= 1, base scales; all SWAG means, deviations and ranks", "why_tests_cant": "Statements about probability distributions and about minimisers over all variational parameters; a test sees finitely many samples of one network.", "anchors": ["fortuna/prob_model/posterior/laplace/laplace_posterior.py::LaplacePosterior.sample", "fortuna/prob_model/posterior/laplace/laplace_posterior.py::LaplacePosterior._compute_std", "fortuna/prob_model/posterior/laplace/laplace_posterior.py::LaplacePosterior._gnn_approx", "fortuna/prob_model/posterior/normalizing_flow/normalizing_flow_trainer.py::NormalizingFlowTrainer.training_loss_step", "fortuna/prob_model/posterior/normalizing_flow/advi/advi_architecture.py::ADVIArchitecture.forward", "fortuna/prob_model/posterior/swag/swag_posterior.py::SWAGPosterior._get_sample", "fortuna/prob_model/prior/gaussian.py::IsotropicGaussianPrior.log_joint_prob", "fortuna/prob_output_layer/regression.py::RegressionProbOutputLayer.log_prob"]}
{"id": "C111", "title": "SGLD with shrinking steps samples a Gaussian posterior", "statement": "Let the posterior be Gaussian with independent coordinates of means mu and variances sigma^2, and run SGLD (momentum decay 0, identity preconditioner, any momentum resampling) with independent standard normal noise for different keys. Then every coordinate of the sample after t steps of any sizes h_0, h_1, ... >= 0 is normal, its mean being mu + (x_0 - mu) prod(1 - h_k/sigma^2) and its variance following v_{t+1} = (1 - h_t/sigma^2)^2 v_t + 2 h_t. If the step sizes tend to 0 but sum to infinity, the distribution converges to that of the posterior from any start; `polynomial_schedule` with a > 0 and b > 0 gives such step sizes for every decay rate it accepts. False of the code: that any schedule shrinking to zero will do: if the step sizes stay below sigma^2 and have a finite sum, the mean of the samples stays away from mu by a positive distance for ever.", "quantifier": "all means, variances > 0, step-size sequences, starts, keys, numbers of steps; every bounded continuous test function", "why_tests_cant": "Convergence in distribution is a statement about infinitely many steps and all starts; a test sees finitely many draws with statistical error, and the difference between schedules shows only in the limit.", "anchors": ["fortuna/prob_model/posterior/sgmcmc/sghmc/sghmc_integrator.py::sghmc_integrator", "fortuna/prob_model/posterior/sgmcmc/sgmcmc_step_schedule.py::polynomial_schedule", "fortuna/training/trainer.py::TrainerABC.training_step"]}
{"id": "C112", "title": "Which losses and scores reward the truth", "statement": "Average a loss of one input over its random target. Classification, labels with probabilities q: the cross-entropy is at least the entropy of q, with equality exactly when the softmax of the outputs is q; the Brier score of probabilities p is |p - q|^2 + 1 - sum q^2, so smallest exactly at p = q (binary form (p-q)^2 + q(1-q)). Regression: the mean squared error exceeds the total variance of the target by the squared distance of the prediction from its mean; the mean absolute error is smallest at a median of every coordinate; the scaled mean squared error is at least sum(1 + log V), with equality exactly when the means are those of the target and the log-variances are log V. False of the code: that the focal loss (gamma >= 2, the default being 2) is minimised by the true probabilities: if the first of two classes has a probability q in (1/2, 1), the expected focal loss increases with the probability given to it from q on, and some outputs giving it less than q have a smaller expected loss than all outputs giving it q or more.", "quantifier": "all numbers of classes and label probabilities (two classes for the focal loss), all outputs and predictions, all gamma >= 2; all target distributions with finite second moment (first moment for the absolute error), variances > 0 for the scaled loss", "why_tests_cant": "The minimiser over all outputs and all label distributions is an infinite quantification; tests evaluate the losses at a few points.", "anchors": ["fortuna/loss/classification/cross_entropy.py::cross_entropy_loss_fn", "fortuna/loss/classification/focal_loss.py::focal_loss_fn", "fortuna/loss/regression/scaled_mse.py::scaled_mse_fn", "fortuna/metric/classification.py::brier_score", "fortuna/metric/regression.py::mean_squared_error", "fortuna/metric/regression.py::mean_absolute_error"]}
{"id": "C113", "title": "What the metrics estimate", "statement": "Let the n >= 1 test rows be independent draws of one law. Then accuracy is on average the probability of a correct prediction and `prediction_interval_coverage_probability` the probability that the interval holds the target, and each differs from it by eps or more with probability at most 2 exp(-2 n eps^2); the Brier score is on average that of a row, with probability of a deviation of eps at most 2 exp(-n eps^2/2); the mean squared error is on average that of a row, and the root mean squared error is on average at most its root. The expected calibration error is on average at least the calibration error of the population over the bins it uses and at most sqrt(10/n) more; for calibrated confidences it is at most sqrt(10/n) on average. False of the code: that it is 0 for calibrated confidences: with the confidence 1/2 on an odd number n of rows it is at least 1/(2n) whatever the labels.", "quantifier": "all n >= 1, laws of the rows, eps >= 0; confidences in [0,1]", "why_tests_cant": "Expectations and deviation probabilities over all test sets and all laws; a test evaluates the metrics on single data sets.", "anchors": ["fortuna/metric/classification.py::accuracy", "fortuna/metric/classification.py::expected_calibration_error", "fortuna/metric/classification.py::compute_counts_confs_accs", "fortuna/metric/classification.py::brier_score", "fortuna/metric/regression.py::prediction_interval_coverage_probability", "fortuna/metric/regression.py::mean_squared_error", "fortuna/metric/regression.py::root_mean_squared_error"]}
{"id": "C114", "title": "How often credible intervals contain a new target", "statement": "If the n target samples of an input and a new target are exchangeable, for example drawn independently from the predictive distribution with different keys, then the quantile of level p is at least the new target with probability at least (floor(p(n-1))+1)/(n+1) and at most it with probability at least (n-ceil(p(n-1)))/(n+1); without ties these bounds hold from above with floor and ceil exchanged. A two-tailed credible interval with error e contains the new target with probability at least 1-e-(4-2e)/(n+1), the left-tailed bound is at most it, and the right-tailed at least it, with probability at least 1-e-2(1-e)/(n+1); for a predictive distribution without atoms the two-tailed probability is within 4/(n+1) of 1-e. False as expected: that the interval contains a target drawn from the predictive itself with probability 1-e. Without ties and with e(n-1)/2 a whole number the probability is exactly (1-e)(n-1)/(n+1), always less; 9/11 for a 90% interval from 21 samples.", "quantifier": "all predictive distributions, all numbers of samples n >= 1, all levels p and errors e in [0,1]", "why_tests_cant": "A coverage probability is a statement about the joint law of all samples and the new target; a test sees one draw, and the shortfall of about 2/(n+1) vanishes in Monte Carlo noise.", "anchors": ["fortuna/prob_model/predictive/regression.py::RegressionPredictive.credible_interval", "fortuna/prob_model/predictive/regression.py::RegressionPredictive.quantile"]}
{"id": "C115", "title": "What the kernel Stein discrepancy of independent samples estimates", "statement": "Let the target have a density p on R^d with partial derivatives p·g (g the gradients of the log density passed to kernel_stein_discrepancy_imq) and with E|g|² finite, and let c > 0 and beta < 0. The Stein kernel the function sums has expectation 0 under the target in each argument. For n ≥ 1 independent samples of any distribution with E|g|² finite, the expected square of the returned value is (1 − 1/n)·gap + (c^(2·beta)·E|g|² − 2·beta·d·c^(2·beta − 2))/n, where gap is the double integral of the kernel against that distribution; gap is never negative and is 0 for the target. So n exact samples of the posterior have expected square (c^(2·beta)·E|g|² − 2·beta·d·c^(2·beta − 2))/n — 2d/n for a standard Gaussian and the default parameters — and the value exceeds eps with probability at most that divided by eps². False of the code: 'the discrepancy is 0 when the samples are from the posterior' (one sample always has a positive discrepancy, and the expectation of the square is positive for every n).", "quantifier": "every dimension d, density with gradients of finite second moment, number of samples n, c > 0, beta < 0, distribution of the samples and threshold", "why_tests_cant": "A statement about expectations and probabilities over all samples from an arbitrary target density in any dimension; a test evaluates the function on a few fixed arrays.", "anchors": ["fortuna/prob_model/posterior/sgmcmc/sgmcmc_diagnostic.py::kernel_stein_discrepancy_imq"]}
{"id": "C116", "title": "SNGP's variance is the posterior variance of a Gaussian process", "statement": "After a fit whose precision matrix is ridge*I plus the sum of phi phi^T over the training points (C78), the covariance SNGP computes for two inputs is that of a Gaussian process with the inner product of the random features as kernel, conditioned on values at the training points observed with noise of variance ridge: k(x,x') - k(x,X) (k(X,X) + ridge I)^-1 k(X,x'), and the variance is its diagonal. The variance is the least mean squared error of any linear combination of noisy training values for the value at the input, when the weights are independent standard normal. It is also the variance of the value at the input under the exact posterior of a Bayesian linear regression on the features with standard normal weights and noise variance ridge, whatever the training targets are, and that value is normally distributed.", "quantifier": "all numbers of features and of training points, features, ridge > 0, inputs and training targets", "why_tests_cant": "An identity between a recursively accumulated precision matrix and conditional distributions of a Gaussian process, for all data; a test compares numbers for a few inputs.", "anchors": ["fortuna/model/utils/random_features.py::LaplaceRandomFeatureCovariance.compute_predictive_covariance", "fortuna/model/utils/random_features.py::LaplaceRandomFeatureCovariance.update_precision_matrix", "fortuna/model/utils/random_features.py::RandomFeatureGaussianProcess"]}
{"id": "C117", "title": "How SWAG weighs the iterates", "statement": "The mean and the second moment that SWAG collects are weighted averages of the visited parameters, with weights that depend on the number of steps per epoch only, are non-negative and sum to one. With one step per epoch all weights are equal. With B steps per epoch the epochs before epoch k together have weight (k/E)^B after E epochs, and if the visited parameters are independent with variance s2 the variance of the mean is at least s2/(2E-1), however many steps there are in an epoch. False of the code: that the mean is the average over the trajectory.", "quantifier": "all trajectories, numbers of epochs and of steps per epoch, laws of the iterates", "why_tests_cant": "A unit test compares a few steps; the weights and the variance over all run lengths are statements about every trajectory and every number of steps.", "anchors": ["fortuna/prob_model/posterior/swag/swag_trainer.py::SWAGTrainer.training_step_end"]}
{"id": "C118", "title": "SWAG from the end of training to samples", "statement": "The checkpoint written at the end of a SWAG fit holds all parameters, frozen ones included, and the collected statistics, whatever the devices, and on the CPU it is also what the fit returns; a fit that collected nothing raises. On the CPU a sample has the structure of the parameters and its vector is mean + std * noise / sqrt 2 + deviations * noise / sqrt(2 rank) with a normal number of its own for every parameter; with frozen parameters the pieces of the vector are at the paths of the trained arrays and everything else is unchanged. False of the code: with a GPU (even one) and the default devices, the returned statistics have an additional axis, so that sampling raises if there are two or more arrays or if parameters were frozen, and with one array all entries share one normal number and have the wrong covariance; with frozen parameters the returned parameters lack them.", "quantifier": "all parameter trees, selections, collected statistics, noises, devices", "why_tests_cant": "Tests run on a CPU with one small network; that the returned state can be sampled depends on the kind of device, and the law of samples on all noises.", "anchors": ["fortuna/prob_model/posterior/swag/swag_trainer.py::MultiDeviceSWAGTrainer.on_train_end", "fortuna/prob_model/posterior/swag/swag_trainer.py::SWAGTrainer.on_train_end", "fortuna/prob_model/posterior/swag/swag_trainer.py::SWAGTrainer.save_checkpoint", "fortuna/prob_model/posterior/swag/swag_trainer.py::SWAGTrainer._update_state_with_stats", "fortuna/prob_model/posterior/swag/swag_posterior.py::SWAGPosterior.sample"]}
{"id": "C119", "title": "Feature extractors from pretrained transformers", "statement": "`FlaxAutoSNGPModelForSequenceClassification.from_pretrained` loads models of type bert, distilbert and roberta and raises for every other type. Of a checkpoint of the network every required parameter is taken, of a base model's checkpoint every parameter of the encoder; what is missing is fresh, other entries are dropped, and the spectral statistics form a collection of their own beside the parameters. `init_weights` fills exactly the missing keys. A call with parameters uses these and the collections passed, and nothing stored in the model; collections can change and noise is used only in training. Inputs left out get a mask of ones (padding included), token types 0 and positions that count from 0 (BERT) or count the tokens that are not padding (RoBERTa), which do not depend on padding on the right. False of the code: a model that is saved by the library and loaded again has only fresh weights, without an error; a call without parameters but with collections stores these in the model, also in evaluation, and later calls use them.", "quantifier": "all trees of parameters and checkpoints, all sets of required keys, all rows of tokens, all stored variables and calls", "why_tests_cant": "A test would have to compare every weight of a loaded network with its checkpoint, for every checkpoint, and save and load models; the repository's tests do not use these classes.", "anchors": ["fortuna/prob_model/posterior/sngp/transformers/auto_factory.py", "fortuna/prob_model/posterior/sngp/transformers/modeling_flax_auto.py", "fortuna/prob_model/posterior/sngp/transformers/models/modeling_flax_bert.py", "fortuna/prob_model/posterior/sngp/transformers/models/modeling_flax_distilbert.py", "fortuna/prob_model/posterior/sngp/transformers/models/modeling_flax_roberta.py"]}
{"id": "C120", "title": "Which temperature the calibration of a classifier looks for", "statement": "Calibrating `ClassificationTemperatureScaler` by the cross-entropy on any calibration data: the gradient in the parameter (the log-temperature) vanishes exactly at the temperatures with the smallest loss of all, so that descent cannot end elsewhere; at them the logits of the labels are in total what the calibrated probabilities expect. If the logits of some row differ there is at most one such temperature, everywhere else the loss is larger and short gradient steps come nearer to it. It exists exactly if all rows have constant logits or the labels' logits are in total above the average logits and below the largest logits of their rows. Multiplying all logits by a positive number multiplies it and leaves the calibrated logits unchanged. If labels are drawn from the softmax at some temperature, the expected loss is smallest at that temperature and, for logits that differ, only there. False of the code: that there always is an optimum: for a classifier that is right on all calibration data every lower temperature is better, so that calibration makes it ever more confident, and for one whose labels' logits are in total at most average every higher one is.", "quantifier": "all calibration data with any number of rows and classes, all temperatures and step sizes that are short enough", "why_tests_cant": "Statements about all temperatures and all data sets, about the existence of minima and about descent from every start.", "anchors": ["fortuna/output_calibrator/classification.py::ClassificationTemperatureScaler", "fortuna/loss/classification/cross_entropy.py::cross_entropy_loss_fn", "fortuna/output_calib_model/loss.py::Loss.__call__"]}
{"id": "C121", "title": "SGLD on mini-batches of Gaussian data", "statement": "Let the unknown be the mean of normal data with known variances under a normal prior, and run SGLD (momentum decay 0, identity preconditioner, any momentum resampling) with a constant step size h on any sequence of non-empty batches, with independent standard normal noise for different keys. The gradient that the log-joint estimates on a batch is that of a normal posterior with the right variance sigma^2 and a mean (centre) that depends on the batch; over equal batches that make up the data the centres average to the posterior mean. Given the batches every coordinate of a sample is normal, its variance is the one without mini-batches, and its mean moves towards the centre of every batch by the share h/sigma^2. If the batches come in the same order in every epoch and h < 2 sigma^2, the mean approaches, from any start, a cycle of the length of an epoch whose average is the posterior mean. If the batches are drawn independently, with centres of variance V, mean and variance converge to the posterior mean and to sigma^2/(1 - h/(2 sigma^2)) (1 + hV/(2 sigma^4)). False of the code: that one sample per epoch (thinning by the number of batches) in a fixed order has the right mean: with two batches it is off by h/(2 sigma^2 - h) times half the difference of their centres, for ever; and that mini-batches do not change the distribution: random ones make the variance larger.", "quantifier": "all data, batches, priors and variances > 0, step sizes 0 < h < 2 sigma^2, starts, keys, numbers of steps", "why_tests_cant": "Distributions of samples after any number of steps and their limits; a test sees one run with one seed.", "anchors": ["fortuna/prob_model/posterior/sgmcmc/sghmc/sghmc_integrator.py::sghmc_integrator", "fortuna/likelihood/base.py::Likelihood._batched_log_joint_prob", "fortuna/training/trainer.py::TrainerABC.training_step", "fortuna/prob_model/posterior/sgmcmc/sghmc/sghmc_callback.py::SGHMCSamplingCallback"]}
{"id": "C122", "title": "What averaging models does to the error", "statement": "The mean squared error and the Brier score of the predictive mean equal the average of those of the sampled models minus the epistemic variance (summed over components, averaged over the data): never worse than the average model, and equal only if all sampled models agree on every data point. Mean absolute error and root mean squared error are at most the average of the sampled models, and log_prob summed over a data set is at least the average log-likelihood of the models. False of the code: the same for root_mean_absolute_error; that accuracy cannot fall below that of every sampled model; that the average of models with calibration error 0 has calibration error 0; that the average is as good as the best model.", "quantifier": "all models, all numbers of samples >= 1, all data sets, all numbers of output components", "why_tests_cant": "Tests compare metrics with hand-computed numbers on one small array; an inequality between the metrics of a predictive mean and those of its members for all models and data sets cannot be sampled exhaustively.", "anchors": ["fortuna/prob_model/predictive/base.py::Predictive._batched_mean", "fortuna/prob_model/predictive/base.py::Predictive._batched_epistemic_variance", "fortuna/prob_model/predictive/base.py::Predictive._batched_log_prob", "fortuna/prob_model/predictive/classification.py::ClassificationPredictive.mode", "fortuna/metric/regression.py::mean_squared_error", "fortuna/metric/regression.py::root_mean_squared_error", "fortuna/metric/regression.py::mean_absolute_error", "fortuna/metric/regression.py::root_mean_absolute_error", "fortuna/metric/classification.py::brier_score", "fortuna/metric/classification.py::accuracy", "fortuna/metric/classification.py::expected_calibration_error"]}
{"id": "C123", "title": "How OOD scores depend on the features", "statement": "For Mahalanobis scores with all classes present: if the covariance of the training features is invertible, fitting and scoring after any invertible affine map of the features gives the same score; orthogonal maps and translations never change it. The scores of the training data average to at most the feature dimension d (their own-class distances to exactly d when the covariance is invertible) and none exceeds the number of training points, however far out. For DDU with invertible class covariances an invertible affine map adds one and the same number to all scores. False of the code: that points far from the training data always get a high Mahalanobis score (along a direction in which no training point deviates from its class mean the score never changes), and invariance under invertible maps when the covariance is singular.", "quantifier": "all training sets, labels, dimensions, invertible and orthogonal maps, translations, query points; any pseudo-inverse meeting the Penrose conditions", "why_tests_cant": "Tests check shapes and that scores of one synthetic out-of-distribution sample are larger; invariance under all maps, bounds over all data sets and blind directions cannot be sampled.", "anchors": ["fortuna/ood_detection/mahalanobis.py::compute_mean_and_joint_cov", "fortuna/ood_detection/mahalanobis.py::compute_mahalanobis_distance", "fortuna/ood_detection/mahalanobis.py::MalahanobisOODClassifier.fit", "fortuna/ood_detection/mahalanobis.py::MalahanobisOODClassifier.score", "fortuna/ood_detection/ddu.py::compute_classwise_mean_and_cov", "fortuna/ood_detection/ddu.py::_get_logpdf_fn", "fortuna/ood_detection/ddu.py::DeepDeterministicUncertaintyOODClassifier.score"]}
{"id": "C124", "title": "Precision and coverage of the fixed-precision calibrator on new data", "statement": "Let the n calibration rows be independent draws of one law, and let the calibrated positives (probability at least the threshold) reach the precision threshold + margin on the calibration data. The probability that this happens and yet, on new data, P(label 1 and positive) is at most (threshold + margin) P(positive) - eps, is at most n_taus exp(-2 n eps^2); the same holds for negatives. In particular, a precision below the threshold on new data together with at least the fraction c of positives has probability at most n_taus exp(-2 n (margin c)^2). Except with probability 3 n_taus exp(-2 n eps^2), the calibrated positives (negatives) make up more than c - 2 eps of new data whenever some scale of the searched grid gives positives (negatives) that make up the fraction c of new data and are precise enough there, i.e. P(label 1 and positive) >= (threshold + margin) c + eps. False of the code: that the reached precision holds on new data without enough calibration rows, whatever the margin: with all probabilities 9/10 and labels 1 with probability theta, precision 1 is reported with probability at least theta^n while it is theta on new data.", "quantifier": "all laws of the rows, all models with measurable probabilities in [0,1], all thresholds, margins and grid sizes, all n >= 1, eps >= 0", "why_tests_cant": "The statement is about probabilities over calibration sets and future rows; tests use one small array of probabilities and check the returned scale.", "anchors": ["fortuna/conformal/classification/maxcovfixprec_binary_classfication.py::MaxCoverageFixedPrecisionBinaryClassificationCalibrator.calibrate", "fortuna/conformal/classification/maxcovfixprec_binary_classfication.py::MaxCoverageFixedPrecisionBinaryClassificationCalibrator.apply_patches", "fortuna/conformal/classification/maxcovfixprec_binary_classfication.py::MaxCoverageFixedPrecisionBinaryClassificationCalibrator.true_positive_precision", "fortuna/conformal/classification/maxcovfixprec_binary_classfication.py::MaxCoverageFixedPrecisionBinaryClassificationCalibrator.true_negative_precision"]}
{"id": "C125", "title": "How fast the spectral norm estimate converges, and where it is never made", "statement": "After n power iterations the estimate is at least s times the 2n-th root of the cosine between the stored vector and the leading direction, s being the spectral norm of the kernel (which always has a leading direction), whatever the other singular values, and at most s; so it converges to s unless the stored vector is orthogonal to the leading direction, which under a law with a density has probability zero. The kernel used then has a spectral norm of at most bound / cos^(1/2n). In MLPs and ResNets the iterations of successive training calls with the same kernel add up, and the kernel used for predictions comes within every bound above the one asked for. False of the code: in the SNGP text models (BERT, DistilBERT, RoBERTa) the layer is set up without `train`, so no iteration is ever run, the stored vectors stay the random ones of the initialisation, the estimate is the product of the kernel with two fixed vectors, and for every initialisation there are kernels of any norm which are used as they are.", "quantifier": "all kernels, stored vectors, numbers of iterations and calls, bounds, singular values", "why_tests_cant": "The rate is a statement about all kernels and numbers of iterations at once; a test sees one kernel, and cannot tell a slow convergence from none.", "anchors": ["fortuna/model/utils/spectral_norm.py::SpectralNormalization.__call__", "fortuna/model/utils/spectral_norm.py::WithSpectralNorm.spectral_norm", "fortuna/model/utils/spectral_norm.py::WithSpectralConv2DNorm.spectral_norm", "fortuna/prob_model/posterior/sngp/transformers/models/modeling_flax_bert.py::FlaxSNGPBertExtractorForSequenceClassificationModule.setup", "fortuna/prob_model/posterior/sngp/transformers/models/modeling_flax_distilbert.py::FlaxSNGPDistilBertExtractorForSequenceClassificationModule.setup", "fortuna/model/mlp.py::MLPDeepFeatureExtractorSubNet.__call__"]}
{"id": "C126", "title": "Which distances a spectrally normalised network preserves", "statement": "Outside training, with 1-Lipschitz activations and hidden kernels of spectral norm at most c, each residual layer of DeepResidualFeatureExtractorSubNet changes the distance of two rows by a factor between 1-c and 1+c, so that L of them preserve distances up to factors (1-c)^L and (1+c)^L; the features of the whole extractor are as far apart as the outputs of the first layer up to these factors and at most c(1+c)^L times as far as the inputs; an MLP of L layers increases distances by at most c^L. False of the code: if the first layer is narrower than the inputs there are, whatever the kernels, inputs arbitrarily far apart with equal features; an MLP with relu can send all negative inputs to the same features; with c = 1 a residual layer can send all inputs to the same row.", "quantifier": "all numbers of layers, widths, kernels, biases, 1-Lipschitz activations, pairs of inputs", "why_tests_cant": "Distance preservation is about all pairs of inputs and all kernels within the bound.", "anchors": ["fortuna/model/mlp.py::DeepResidualFeatureExtractorSubNet.__call__", "fortuna/model/mlp.py::MLPDeepFeatureExtractorSubNet.__call__", "fortuna/model/utils/spectral_norm.py::SpectralNormalization.__call__"]}
{"id": "C127", "title": "What the spectral normalisation of convolutions bounds", "statement": "SpectralNormalizationConv2D treats a convolution with padding SAME as the linear map on images it is: scaling its kernel scales the map, whose norm then exceeds the bound by no more than the estimate falls short of the true norm, and by no more than 1/cos^(1/2n) after n iterations. The first convolution of the ResNets has padding 3 on all sides instead; for images with odd sides this is what SAME does, and the same bound holds. False of the code: for even sides SAME puts only 2 zeros first, and on images of 2 by 2 there are kernels which the estimate takes for zero and with which the layer stretches an image by any number. SpectralNormalization on a convolution bounds the reshaped kernel: the convolution (any strides and padding) is bounded by the square root of the number of taps times that norm; false of the code: not by that norm itself.", "quantifier": "all image sizes, numbers of channels, window sizes, strides, paddings, kernels, bounds", "why_tests_cant": "Norms of convolutions as maps on images of all sizes; the paddings agree on half of all image sizes.", "anchors": ["fortuna/model/utils/spectral_norm.py::SpectralNormalizationConv2D", "fortuna/model/utils/spectral_norm.py::WithSpectralConv2DNorm.spectral_norm", "fortuna/model/utils/spectral_norm.py::SpectralNormalization.__call__", "fortuna/model/resnet.py::DeepFeatureExtractorSubNet.__call__", "fortuna/model/wideresnet.py::DeepFeatureExtractorSubNet.__call__"]}
{"id": "C128", "title": "What one-shot calibration says about new rows", "statement": "Calibrate a one-shot multicalibrator (top-label or binary) on n independent rows of a law, with B buckets and D classes. Except with probability 2 B D exp(-2 n (min_prob_b eps)^2) all patches of cells with more than min_prob_b of the calibration rows are within eps of the expected score of a new row of the cell (cell: first most likely class c, with a probability less than half a bucket from the bucket's value). A new row of a cell, given on its own, gets exactly that patch for its class c, its other probabilities stay; so on average over the cell, the score of a new row differs from the calibrated probability by at most eps (top-label: the class is right as often as the calibrated probability says). False of the code: buckets are 1/(B-1) apart but cells 1/B wide, so for every B >= 2 there are probabilities in no cell, ignored by the calibration and nevertheless replaced by a patch; for B = 2 all those from 1/4 to 3/4.", "quantifier": "all laws of the data, numbers of rows, buckets and classes, min_prob_b, eps >= 0", "why_tests_cant": "A statement about probabilities under every law; a test sees finitely many samples.", "anchors": ["fortuna/conformal/multivalid/one_shot/base.py::OneShotMultivalidMethod.calibrate", "fortuna/conformal/multivalid/one_shot/base.py::OneShotMultivalidMethod.apply_patches", "fortuna/conformal/multivalid/one_shot/multicalibrator.py::OneShotMulticalibrator._get_patch", "fortuna/conformal/multivalid/one_shot/classification/top_label_multicalibrator.py::OneShotTopLabelMulticalibrator._get_b", "fortuna/conformal/multivalid/base.py::MultivalidMethod._get_buckets"]}
{"id": "C129", "title": "What BatchMVP's calibration says about new rows", "statement": "Run BatchMVP (additive patches, any eta, any validation data) on n independent rows. Except with probability delta, for each of the C cells of the search grid, target coverage minus coverage (weighted by the share of the cell) of the returned thresholds on the calibration rows differs by less than sqrt((k log(2M) + log(4C/delta))/(2n)) from the same quantity for a new row patched by apply_patches; k is the number of stored patches (n_rounds in the status), M the number of cells times the 2 n_buckets - 1 shifts. With buckets of type >= the same holds of every group as a whole. A non-empty cell patched with eta = 1 (scores in (0,1], thresholds in [0,1]) has afterwards a coverage within rho/2 of the target, if no interval of one grid step 1/(n_buckets-1) holds more than a fraction rho of the differences score minus threshold of its rows. False of the code: that a run that reports convergence has covered its calibration rows: it can be converged with no patch stored and no calibration row covered.", "quantifier": "all distributions of rows, groups, initial thresholds, scores, numbers of rows, buckets, rounds, validation data, coverage levels in [0,1], delta in (0,1]", "why_tests_cant": "It is a statement about all distributions and a uniform deviation over exponentially many threshold functions; tests see one data set.", "anchors": ["fortuna/conformal/multivalid/iterative/base.py::IterativeMultivalidMethod.calibrate", "fortuna/conformal/multivalid/iterative/batch_mvp.py::BatchMVPConformalMethod._get_patch", "fortuna/conformal/multivalid/iterative/batch_mvp.py::BatchMVPConformalMethod._compute_probability", "fortuna/conformal/multivalid/iterative/base.py::IterativeMultivalidMethod.apply_patches"]}
{"id": "C130", "title": "What the plots show", "statement": "The two-dimensional plot accepts its arguments exactly if inputs or both meshes are given and either an uncertainty function without grid and grid uncertainties or a grid with one of them; otherwise a ValueError is raised. Without a grid, cell (i, j) is at (xx1[i], xx2[j]) and shows the uncertainty of that point. Automatic meshes have 100 entries (or as many as the given mesh) and reach 5/4 of the inputs' range beyond them on both sides. On a given grid each point is drawn once with its own uncertainty. Inputs are coloured by whether their prediction is 1. A curve of the reliability diagram goes through (confidence, confidence - accuracy) of all bins by increasing confidence, in any order of bins; it is within -1 and 1 and zero exactly if calibrated; each method has its curve and label. The regression band is mean ± n_std standard deviations. The axes of a radar chart are spread evenly over the circle, the first at angle 0, and a line through all of them is closed by its first point. False of the code: remove_ticks makes every plot fail with an AttributeError; a single prediction for several inputs colours them all, and no predictions leave them without colour, instead of being refused; a radar line whose ends have the same angle is left open whatever their radii; a grid with its uncertainties alone, which the error message allows, is refused; a mesh of shape (n, 1) is refused by the regression plot.", "quantifier": "all arguments, grids, meshes, functions, predictions, bins", "why_tests_cant": "The checks depend on the combination of seven optional arguments, and pairing of values with points must hold for all grids.", "anchors": ["fortuna/plot.py::plot_2d_classification_predictions_and_uncertainty", "fortuna/plot.py::plot_reliability_diagram", "fortuna/plot.py::plot_1d_regression_preds_and_std", "fortuna/plot.py::radar_factory"]}
{"id": "C131", "title": "Which training job is submitted to SageMaker", "statement": "For a configuration with a base path and no null relative paths there is one train channel, and a test or validation channel exactly if its relative path is given and not empty, below the base path with exactly one slash added if it lacks it. All hyperparameters of task, model and method reach the entrypoint, with a TypeError exactly if two sections share a name. The job name is fortuna, task, method, model and the suffix unless null, joined by dashes, without underscores. The job is a tuning job exactly if the section hyperparams has a tuner. False of the code: the documented minimal configuration is refused, since hparams in all three sections, job_name_suffix, output_data_path and the section hyperparams are needed; a null relative path raises a TypeError; a tuner under sagemaker, as documented, is ignored; different tasks and methods can have the same job name.", "quantifier": "all configurations (entries missing, null or text)", "why_tests_cant": "Every entry may be missing, null, empty or a text; combinations are not enumerable and need an AWS account to run.", "anchors": ["fortuna/sagemaker/utils.py::create_input_channels", "fortuna/sagemaker/utils.py::get_base_job_name", "fortuna/sagemaker/utils.py::get_hparams", "fortuna/sagemaker/base.py::_run_training_job"]}
{"id": "C132", "title": "Which monitoring configurations are accepted, and which then run", "statement": "A monitor is made exactly if metrics are absent or a tuple of callables (and uncertainty_fn absent or callable); otherwise a ValueError is raised. A fit of at least one epoch then reports loss and, unless disabled, every metric, and exactly if validation data are given and eval_every_n_epochs > 0 the same with val_ in front, whenever it stops early. Its only failures, in this order: AttributeError for a metric without name; TypeError for eval_every_n_epochs=None with validation data; KeyError if early stopping is active and its monitor is not val_loss or val_ and a metric's name; TypeError after all epochs if a metric has the name of a reported validation value. A float of at least 0 as step_schedule of SGHMC is a constant schedule, a function is used as it is. False of the code: None, documented to disable validation, raises; a functools.partial passes the constructor and fails in the first epoch; metrics m and val_m train for all epochs and then raise; an integer step_schedule is refused.", "quantifier": "all metrics, names, numbers of epochs, stopping times, configurations", "why_tests_cant": "Exceptions depend on combinations of names and optional arguments and on epochs reached only after hours of training.", "anchors": ["fortuna/prob_model/fit_config/monitor.py::FitMonitor.__init__", "fortuna/prob_model/calib_config/monitor.py::CalibMonitor.__init__", "fortuna/training/trainer.py::TrainerABC.should_perform_validation", "fortuna/training/trainer.py::TrainerABC.compute_metrics", "fortuna/training/mixin.py::WithEarlyStoppingMixin.early_stopping_update", "fortuna/prob_model/posterior/sgmcmc/sghmc/sghmc_approximator.py::SGHMCPosteriorApproximator.__init__"]}
{"id": "C133", "title": "Coverage of split conformal prediction on all new data, given one calibration set", "statement": "Calibrate AdaptivePredictionConformalClassifier, SimplePredictionConformalClassifier, QuantileConformalRegressor or OneDimensionalUncertaintyConformalRegressor (positive uncertainties) once, with n independent points. Except with probability exp(-2 n eps^2) over the calibration data, at least a fraction 1-error-eps of all new points of the same law are covered according to is_in. If no single score has positive probability then, except with the same probability, at most a fraction 1-error+(1-error)/n+eps (classification) or 1-error+(2-error)/n+eps (regression) is covered. False of the code: that a fraction 1-error of new points is covered whatever the calibration data; if targets are 0 with probability theta, then with probability theta^n or more the calibrated interval around the prediction 0 covers a fraction theta of new targets, whatever the error.", "quantifier": "all laws of the data, all models (measurable), all n >= 1, all errors in [0,1] (also below 1/(n+1)), all eps >= 0", "why_tests_cant": "Tests calibrate on one data set and evaluate few points; the claim is about the law of the coverage over all calibration sets, and all laws of the data.", "anchors": ["fortuna/conformal/classification/base.py::SplitConformalClassifier.conformal_set", "fortuna/conformal/classification/adaptive_prediction.py::score_fn", "fortuna/conformal/classification/simple_prediction.py::score_fn", "fortuna/conformal/regression/quantile.py::QuantileConformalRegressor.quantile", "fortuna/conformal/regression/quantile.py::QuantileConformalRegressor.conformal_interval", "fortuna/conformal/regression/onedim_uncertainty.py::OneDimensionalUncertaintyConformalRegressor.quantile", "fortuna/conformal/regression/onedim_uncertainty.py::OneDimensionalUncertaintyConformalRegressor.conformal_interval", "fortuna/conformal/regression/base.py::ConformalRegressor.is_in"]}
{"id": "C134", "title": "Binary temperature scaling on new data", "statement": "Fit a binary temperature scaler on n independent rows with probabilities and targets in [0,1]; new rows have the same law. Bias scaler: except with probability 4exp(-2 n eps^2), the mean of p/T over new data equals the mean target up to eps(1+1/T), and the mean of predict_proba exceeds it by no more. Brier scaler: except with probability 4exp(-2 n eps^2), the mean squared error of predict_proba over new data is at most that of p/T' plus eps(1/T^2+2/T+1/T'^2+2/T'), for all T'>0 at once. F1 scaler (positive probabilities, positive labels with probability pi>0, polishing leaves its start only for better points): for each k, except with probability 4k exp(-2 n eps^2), the fitted temperature is positive, the F1 score on the calibration data differs from the one on new data by at most 4(eps+1/k)/pi, and on new data neither a temperature of the search grid nor predicting 1 everywhere has an F1 score larger by more than 8(eps+1/k)/pi. False of the code: that the mean of the bias scaler's clipped probabilities approaches the mean target; with targets 1 and probabilities 1 or 1/10 it stays 3/8 below, however many rows there are.", "quantifier": "all laws of the rows, all n >= 1, all eps >= 0, all k >= 1, all thresholds in (0,1]", "why_tests_cant": "Tests fit on one sample and look at it; the claims are about the law of the fitted temperature, for every law of the data and uniformly over temperatures.", "anchors": ["fortuna/calibration/binary_classification/temp_scaling/bias_binary_temp_scaling.py::BiasBinaryClassificationTemperatureScaling.fit", "fortuna/calibration/binary_classification/temp_scaling/brier_binary_temp_scaling.py::BrierBinaryClassificationTemperatureScaling.fit", "fortuna/calibration/binary_classification/temp_scaling/f1_temp_scaling.py::F1BinaryClassificationTemperatureScaling.fit", "fortuna/calibration/binary_classification/temp_scaling/f1_temp_scaling.py::F1BinaryClassificationTemperatureScaling.predict", "fortuna/calibration/binary_classification/temp_scaling/base.py::BaseBinaryClassificationTemperatureScaling.predict_proba"]}
{"id": "C135", "title": "Laplace approximation under a diagonal Gaussian prior", "statement": "With a diagonal Gaussian prior that has one log-variance per parameter, and no parameter frozen, each log-variance is used for the same parameter in the prior's density and in the Laplace approximation, whatever the networks and the order of keys in the parameter and Hessian trees: the prior's log-density is the sum over the parameters of centred normal log-densities, and a posterior sample is the MAP value plus noise times the standard deviation whose inverse square is that parameter's prior precision plus its Hessian entry. Samples are refused if there is neither one log-variance nor as many as parameters. False of the code: if some parameters are frozen, the fit succeeds and every sample raises, since the full vector of log-variances is added to the Hessian of the trainable parameters alone.", "quantifier": "all parameter trees, Hessians, key orders, log-variances, noises and selections of frozen parameters", "why_tests_cant": "Which log-variance meets which parameter depends on the flattening of arbitrary nested trees; tests use isotropic priors or a single tree.", "anchors": ["fortuna/prob_model/posterior/laplace/laplace_posterior.py::LaplacePosterior._compute_std", "fortuna/prob_model/posterior/laplace/laplace_posterior.py::LaplacePosterior.sample", "fortuna/prob_model/prior/gaussian.py::DiagonalGaussianPrior", "fortuna/prob_model/posterior/laplace/laplace_state.py::LaplaceState.convert_from_map_state"]}
{"id": "C136", "title": "What the reported validation losses of iterative multivalid methods say about new rows", "statement": "Run an iterative multicalibrator (one-dimensional or top-label, additive or multiplicative patches) or BatchMVP on any calibration rows, with n independent validation rows with values and scores in [0,1]. The validation rows decide when the run stops but not what it stores: of the patch lists of two runs that differ in their validation rows only, one begins with the other. Except with probability 2 (n_rounds + 1) exp(-2 n eps^2), for every i up to the number of stored patches losses[i] (divided by n for one-dimensional values, where the code reports the sum) is within eps of the expected loss of a new row to which apply_patches has applied the first i patches; hence the stored patches raise the expected loss of a new row by less than 2 eps. False of the code: that the reported losses describe new rows without enough validation rows: with scores 1 with probability theta and 0 otherwise, a run can with probability at least theta^n report losses going down from n to n/16 although the expected loss of a new row goes from theta to 9/16 - theta/2.", "quantifier": "all calibration data, all laws of the validation rows, all groups (measurable), configurations, numbers of rounds and validation rows, eps >= 0", "why_tests_cant": "a law of large numbers uniform over a data-dependent number of rounds; tests see finitely many data sets", "anchors": ["fortuna/conformal/multivalid/iterative/base.py::IterativeMultivalidMethod.calibrate", "fortuna/conformal/multivalid/iterative/base.py::IterativeMultivalidMethod.apply_patches", "fortuna/conformal/multivalid/mixins/multicalibrator.py::MulticalibratorMixin._loss_fn", "fortuna/conformal/multivalid/mixins/batchmvp.py::BatchMVPMixin.pinball_loss"]}
{"id": "C137", "title": "Online EnbPI intervals cover the next observation of an exchangeable stream", "statement": "A user who fits the bootstrap models once and then calls EnbPI.conformal_interval_from_residuals once per observation, always passing on the returned residuals, obtains at every round after the first n (n = number of stored residuals) an interval that contains the next target with probability at least (floor((1 - error)(n - 1)) + 1)/(n + 1), hence at least 1 - error - 2/(n + 1), whenever the n observations in the window and the next one are exchangeable; whatever the models, the aggregation function and the initial residuals are. Without ties among the residuals the probability is at most (ceil((1 - error)(n - 1)) + 1)/(n + 1). The expected number of covered targets over any set of such rounds is at least the lower bound times the number of rounds. False of the code: that the coverage is 1 - error; for error below one half and (1 - error)(n - 1) an integer it is strictly smaller under every law without ties.", "quantifier": "all probability laws, models, aggregation functions, initial residuals, window lengths, rounds, error levels in [0, 1]", "why_tests_cant": "A probability over all exchangeable streams; a test sees finitely many sampled streams and cannot tell a coverage of 0.892 from 0.9.", "anchors": ["fortuna/conformal/regression/enbpi.py::EnbPI.conformal_interval_from_residuals"]}
{"id": "C138", "title": "Law of the samples of cyclical SGLD on a Gaussian posterior", "statement": "Let the posterior be Gaussian with independent coordinates of means mu and variances sigma^2, and run the cyclical SGLD integrator (identity preconditioner, any cycle length, initial step size and exploration ratio) with independent standard normal noise for different keys. Then every coordinate of the sample after any number of steps is normal; its mean is mu + (x_0 - mu) prod(1 - h_k/sigma^2), and its variance is multiplied by (1 - h_k/sigma^2)^2 in every step and grows by 2 h_k in the steps of the sampling phase only. If the initial step size is below 2 sigma^2, the distribution at each position of the cycle converges to a normal one with mean mu, from any start. As the initial step size tends to 0, its variance tends, at every position of the cycle, to sigma^2 times the share of the sampling phase in the step sizes of a cycle; for a cycle of L steps of which m = ceil(ratio L) explore this share is given in closed form, and as the cycles get longer it tends to 1 - ratio - sin(pi ratio)/pi (below 3/5 for the ratio 1/4). False of the code: that with small steps the samples follow the posterior: with any positive exploration ratio the variance of the samples is too small at every position of the cycle, also at those where samples are stored.", "quantifier": "all means, variances > 0, cycle lengths > 0, exploration ratios, initial step sizes, starts, keys, numbers of steps; every bounded continuous test function", "why_tests_cant": "The distribution of a random sample in the limit of infinitely many cycles and vanishing steps; a test runs finitely many steps on one seed.", "anchors": ["fortuna/prob_model/posterior/sgmcmc/cyclical_sgld/cyclical_sgld_integrator.py::cyclical_sgld_integrator", "fortuna/prob_model/posterior/sgmcmc/sgmcmc_step_schedule.py::cyclical_cosine_schedule_with_const_burnin", "fortuna/training/trainer.py::TrainerABC.training_step"]}
{"id": "C139", "title": "What a MAP fit by gradient descent finds", "statement": "Let the log-joint of the batches be strongly concave: curvature at least m > 0, gradient with Lipschitz constant L. Then it has exactly one stationary point, which is its strict maximum, the mode. A MAP fit (or a member of an ensemble) with plain gradient descent, without clipping and accumulation, performs exactly the iteration x + lr * gradient(batch, x) over the batches of the epochs trained. If all data are in one batch, lr < 2 m / L^2 and early stopping is off, the parameters after n epochs are within r^n times their initial distance of the mode, for some r < 1 and any start. With several batches whose gradients at a point are at most delta long, they are within r^t times the initial distance plus lr delta / (1 - r) of it after t steps. A linear softmax classifier with an isotropic Gaussian prior meets the condition on every batch: m = exp(-log_variance) and L = m plus n_data / batch size times the sum of the squared features of the batch; the gradient of its log-joint is the stated one. False of the code: that minibatch fits converge to the mode for a fixed learning rate (two batches around -1 and 1: the fit tends to lr / (2 - lr), from any start, instead of 0), and that any learning rate will do (above 2 v the fit of a Gaussian log-joint with variance v leaves every bound).", "quantifier": "all numbers of parameters, strongly concave log-joints, batches, epochs, learning rates in the range, starts; all linear classifiers, features, labels, log-variances", "why_tests_cant": "Convergence to the maximum over a continuum of parameters, for all data and starts; a test looks at finitely many steps on one data set.", "anchors": ["fortuna/prob_model/posterior/map/map_posterior.py::MAPPosterior.fit", "fortuna/training/trainer.py::TrainerABC.training_step", "fortuna/training/trainer.py::TrainerABC._training_loop", "fortuna/prob_model/joint/base.py::Joint._batched_log_joint_prob", "fortuna/model/linear.py::LinearModel", "fortuna/prob_output_layer/classification.py::ClassificationProbOutputLayer.log_prob", "fortuna/prob_model/prior/gaussian.py::IsotropicGaussianPrior.log_joint_prob"]}
{"id": "C140", "title": "SGLD on strongly log-concave posteriors forgets its start and stays near the mode", "statement": "Let the log-joint be strongly concave, on every batch: curvature at least m > 0, gradient with Lipschitz constant L (a linear softmax classifier with a Gaussian prior is an instance, C139). Two SGLD chains (momentum decay 0, identity preconditioner, any momentum resampling) with the same noise and batches have, whatever the noise, a squared distance of at most prod(1 - 2 h_k m + h_k^2 L^2) times that of their starts; the same holds of cyclical SGLD for any cycle length and exploration ratio. Hence with steps that tend to 0 and sum to infinity, or of a constant size below 2 m / L^2, chains from different starts meet in the limit. With independent standard normal noise for different keys the mean squared distance of a sample from the mode is multiplied by at most 1 - 2 h m + h^2 L^2 in a step of size h and grows by 2 h times the number d of parameters; with a constant h < 2 m / L^2 it is at most rho^t times the initial one plus 2 d / (2 m - h L^2), which is attained in the limit by a Gaussian posterior. False without concavity: on a flat posterior the distance of two chains never changes.", "quantifier": "all strongly concave log-joints, numbers of parameters, step sizes >= 0, batches, noise, starts, keys, numbers of steps", "why_tests_cant": "Statements on all paths of the noise and on expectations over it, for arbitrary many steps and all log-joints of a class.", "anchors": ["fortuna/prob_model/posterior/sgmcmc/sghmc/sghmc_integrator.py::sghmc_integrator", "fortuna/prob_model/posterior/sgmcmc/cyclical_sgld/cyclical_sgld_integrator.py::cyclical_sgld_integrator", "fortuna/training/trainer.py::TrainerABC.training_step", "fortuna/prob_model/joint/base.py::Joint._batched_log_joint_prob"]}
{"id": "C141", "title": "Mini-batch MAP fits with a decreasing learning rate find the mode", "statement": "A MAP fit (or a member of an ensemble) with gradient descent and a schedule of learning rates, without clipping and accumulation, moves by lr(n) times the gradient of the batch after n updates. Let the log-joint of all data be strongly concave, let every epoch consist of k batches, in an order and composition that may change from epoch to epoch, whose gradients add up to k times that of all data, are Lipschitz and bounded at each point, and let the learning rates tend to 0, sum to infinity and vary within an epoch by a share that tends to 0. Then, with early stopping off, the parameters after n epochs converge to the mode, the maximum of the log-joint, from any start. Rates a / (n + b) with a, b > 0 are of this kind, and so are rates that are constant in every epoch, tend to 0 and sum to infinity. A linear softmax classifier with an isotropic Gaussian prior on batches of equal size meets the conditions, however the rows are shuffled.", "quantifier": "all numbers of parameters, log-joints of the class, numbers of batches, shuffles, schedules of the class, starts; all linear classifiers, features, labels, log-variances", "why_tests_cant": "A limit over infinitely many epochs, for all shuffles and starts.", "anchors": ["fortuna/prob_model/posterior/map/map_posterior.py::MAPPosterior.fit", "fortuna/training/trainer.py::TrainerABC.training_step", "fortuna/training/trainer.py::TrainerABC._training_loop", "fortuna/prob_model/joint/base.py::Joint._batched_log_joint_prob", "fortuna/likelihood/base.py::Likelihood._batched_log_joint_prob", "fortuna/model/linear.py::LinearModel", "fortuna/prob_output_layer/classification.py::ClassificationProbOutputLayer.log_prob", "fortuna/prob_model/prior/gaussian.py::IsotropicGaussianPrior.log_joint_prob"]}
{"id": "C142", "title": "Lengths of tokenized rows and padded batches", "statement": "Sequence classification datasets: with padding=True a batch has one row per text, in order, each the text truncated to max_length followed by padding tokens, all as long as the longest truncated text of the batch, so at most max_length; with padding=\"max_length\" every row of every batch has exactly max_length tokens; without padding a batch is accepted exactly if its truncated texts have equal lengths, and is otherwise refused with a ValueError. Multiple choice datasets: entry (i, j) of a batch is choice j of row i followed by padding tokens, all as long as the longest choice of the batch rounded up to a multiple of pad_to_multiple_of. Masked language models: the texts are taken in blocks of 1000; of the joined tokens of each block all but fewer than max_length at the end are cut into chunks of max_length tokens and nothing else is lost; batches of chunks are padded to max_length rounded up to a multiple of pad_to_multiple_of; a model without a mask token is refused, with a ValueError at the first batch, and so is any number of text columns other than one. False of the code: pad_to_multiple_of has no effect in sequence classification; max_length and padding have no effect in multiple choice, whose rows can be longer than max_length; rows for masked language models are longer than max_length unless pad_to_multiple_of divides it (128 instead of 100 by default); a dataset of more than 1000 texts can lose max_length tokens or more.", "quantifier": "all tokenizers that truncate to a given length, texts, questions, lengths, multiples, padding settings", "why_tests_cant": "Lengths depend on the longest text of each batch and on divisibility; tests use a few short texts.", "anchors": ["fortuna/data/dataset/huggingface_datasets.py::HuggingFaceSequenceClassificationDataset.get_tokenized_datasets", "fortuna/data/dataset/huggingface_datasets.py::HuggingFaceSequenceClassificationDataset._collate", "fortuna/data/dataset/huggingface_datasets.py::HuggingFaceMultiChoiceDataset._collate", "fortuna/data/dataset/huggingface_datasets.py::HuggingFaceMultiChoiceDataset.data_collator", "fortuna/data/dataset/huggingface_datasets.py::HuggingFaceMaskedLMDataset.get_tokenized_datasets", "fortuna/data/dataset/huggingface_datasets.py::HuggingFaceMaskedLMDataset._collate", "fortuna/data/dataset/data_collator.py::FlaxDataCollatorForMultipleChoice.__call__", "fortuna/data/dataset/data_collator.py::FlaxDataCollatorForLanguageModeling.__call__"]}
{"id": "C143", "title": "What cleaning a text changes", "statement": "string_cleaner changes nothing but spaces and case: the characters of the text that are not spaces stay the same, in the same order; the first of them and those after an exclamation mark are in upper case, all others in lower case, and cleaning again changes no letter. The result has no spaces at its ends and none next to an apostrophe. The first space before one of ? . , % ! \" that is followed by a space or the end is removed. False of the code: sentences after a full stop or a question mark start in lower case, as do names; a decimal number is broken in two (\"3.14\" becomes \"3. 14\") and an ellipsis in three; an apostrophe at the end of a word glues it to the next word; of two spaces before punctuation in a row the second is kept.", "quantifier": "all texts; all maps to upper and lower case that keep spaces and marks (ASCII among them)", "why_tests_cant": "Each of the five steps undoes part of the one before; a test sees one sentence.", "anchors": ["fortuna/hallucination/utils/string.py::string_cleaner"]}
{"id": "C144", "title": "What SGHMC samples when the momentum is resampled", "statement": "Let sghmc_integrator be used with momentum_resample_steps = K >= 1 (SGHMCPosterior itself passes None), momentum decay d in [0,1), identity preconditioner and a constant step size h, on a Gaussian posterior with independent coordinates of means mu and variances sigma^2, with independent standard normal noise for different keys. After n*K steps every coordinate of the sample is normal with a known mean and variance; for all small enough h it converges in distribution, from any start, to a normal distribution of mean mu. As h tends to 0 its variance tends to f(K,d) sigma^2, where f(K,d) = (1-d) sum c_j^2 / sum c_j over c_j = 1 + d + ... + d^(j-1), j = 1..K; f tends to 1 as K grows. With K = 1 the variance is 1-d times that of SGLD, for every h. False of the code: that for small steps the samples follow the posterior: the momentum is set to zero instead of being drawn, and for d > 0 the variance in the long run is smaller than sigma^2 for all small enough h, by the factor f(K,d) < 1.", "quantifier": "all means, variances > 0, decays, step sizes, K >= 1, starts, keys, numbers of blocks; every bounded continuous test function", "why_tests_cant": "A statement about limits of distributions; a test would need long chains at ever smaller steps.", "anchors": ["fortuna/prob_model/posterior/sgmcmc/sghmc/sghmc_integrator.py::sghmc_integrator", "fortuna/training/trainer.py::TrainerABC.training_step"]}
{"id": "C145", "title": "SGLD with the RMSprop preconditioner", "statement": "Run SGLD (momentum decay 0, any momentum resampling) with rmsprop_preconditioner of running_average_factor r in [0,1) and eps > 0, on any batches and gradients. In every step the drift is h*g/(eps + sqrt(e)) and the noise has variance 2h/(eps + sqrt(e)), e being the exponentially weighted average of the squared gradients; after t steps a coordinate is at most sum(h_k/sqrt(1-r) + sqrt(2 h_k/eps) |noise_k|) away from its start, and on average at most sum(h_k/sqrt(1-r) + sqrt(2 h_k/eps)), whatever the gradients: large gradients cannot make the chain explode. A coordinate without gradient makes a random walk with steps of variance 2h/eps. On a Gaussian posterior, one step changes the mean squared distance of a sample from the posterior mean by 2h E[(1 - (X-mu)^2/v)/W] + h^2 E[((X-mu)/(vW))^2], W = eps + sqrt(r e + (1-r) g^2). False of the code: that a chain started at the mode stays near it for small steps (after one step its variance is 2h/eps: 200 for h = 1e-5 and the default eps); that the posterior is kept up to second order in h, as it is without preconditioner (where the change is h^2/v): from a sample distributed like the posterior the mean square grows by at least 2hc with c > 0 independent of h, because the term for the dependence of the preconditioner on the parameters is missing; with r = 0 no distribution kept by the sampler comes near the posterior as h tends to 0.", "quantifier": "all gradients, batches, step sizes, starts, decay factors, eps > 0; all means and variances of the posterior; all distributions with a second moment", "why_tests_cant": "Statements about all gradient sequences and about distributions to first order in the step size.", "anchors": ["fortuna/prob_model/posterior/sgmcmc/sgmcmc_preconditioner.py::rmsprop_preconditioner", "fortuna/prob_model/posterior/sgmcmc/sghmc/sghmc_integrator.py::sghmc_integrator"]}
{"id": "C146", "title": "Methods of a likelihood: log-probability, samples, mean, mode, variance, entropy", "statement": "Let the output calibration (if any) act row by row. Then Likelihood.log_prob, mean, mode, variance, entropy, get_outputs and get_calibrated_outputs return one value per input in loader order, that of the calibrated output of this input, whatever the batches and the number of devices (dividing the batches). For classification the exponentials of log_prob over the labels are a probability distribution for every input, mean and variance are the mean and variance of its one-hot encoded label, mode is its first most likely label and entropy is its Shannon entropy. For regression the exponential of log_prob is the density of independent normal variables with the means and variances that mean (mode) and variance return, and entropy is the entropy of this distribution plus half the difference between the mean sum of squares of the random numbers used for the input and the number of components. sample returns n rows in loader order and uses for draw s and input j of the whole loader its own random numbers; outputs come with the samples exactly if asked for, other names raise. std is the square root of the variance, also of one that is passed. Without any batch, with a batch that the devices do not divide, and with a calibrator but no calibration parameters the methods raise. False of the code: for a calibrator that mixes rows, mean, mode, variance and log_prob depend on batches and devices and disagree with get_calibrated_outputs, sample and entropy.", "quantifier": "all networks, row-wise calibrators, loaders, batchings, device counts, numbers of draws, random numbers", "why_tests_cant": "Tests use one loader on one device and compare shapes; agreement of the methods as statements about one distribution, for every batching and every number of devices, is about unboundedly many inputs.", "anchors": ["fortuna/likelihood/base.py::Likelihood.log_prob", "fortuna/likelihood/base.py::Likelihood.sample", "fortuna/likelihood/base.py::Likelihood.get_calibrated_outputs", "fortuna/likelihood/base.py::Likelihood.mean", "fortuna/likelihood/base.py::Likelihood.std", "fortuna/likelihood/classification.py::ClassificationLikelihood.entropy", "fortuna/likelihood/classification.py::ClassificationLikelihood._batched_variance", "fortuna/likelihood/regression.py::RegressionLikelihood.entropy", "fortuna/likelihood/regression.py::RegressionLikelihood._batched_variance"]}
{"id": "C147", "title": "What a probabilistic model is put together from", "statement": "For each of the eight posterior approximators, every model and editor, and whether or not transformers can be imported, ProbClassifier is built with the posterior the approximator names and a manager holding the user's model and editor: the Hugging Face manager exactly for a transformers model, the SNGP one exactly for SNGP. All hyperparameters of an SNGP approximator reach the Gaussian process head, those an approximator of that name leaves out take the defaults of the library's, the covariance-reset callback gets the same ridge penalty, and the manager the mean field factor; with the other approximators there is no head. CalibClassifier has the manager and output layer that ProbClassifier has with any approximator but SNGP. For a model that is not from transformers, installing the package changes neither manager nor posterior. The masked output layer is used exactly when the transformers mapping can be imported and contains the model's class name. An approximator with another name is an AttributeError; superfluous or missing keyword arguments are a TypeError. False of the code: the layer goes by the class name only, so a renamed subclass of a masked language model gets the ordinary layer and an unrelated class of that name the masked one; with a transformers model keyword arguments of a user's approximator are dropped silently; ProbRegressor accepts an SNGP approximator, ignores its hyperparameters, and every fit of it is an AttributeError.", "quantifier": "all environments, models, editors, approximators (also user-defined), SNGP hyperparameters", "why_tests_cant": "The choice depends on which packages are installed, on class names and on every approximator and hyperparameter value; a test environment is one fixed combination of them.", "anchors": ["fortuna/prob_model/classification.py:113", "fortuna/prob_model/regression.py:108", "fortuna/calib_model/classification.py:70", "fortuna/model/model_manager/name_to_model_manager.py:17", "fortuna/prob_model/posterior/posterior_approximations.py:27", "fortuna/prob_model/posterior/sngp/sngp_posterior.py:46", "fortuna/model/model_manager/classification.py:189"]}
{"id": "C148", "title": "Which temperature the calibration of an ensemble looks for", "statement": "The objective that ProbModel.calibrate maximises over the ensemble of posterior outputs (the logarithm of the mean over the members of the likelihood of all calibration data) is, for any calibrator and parameters, at most the weighted log-likelihood of the best member and at least that minus log S: members count by how well they fit, almost nothing but the best one for many data points. Parameters better for every member are better for the ensemble. Scaling the variances of regression outputs by a temperature, the objective strictly increases while the temperature is below every member's mean squared standardised residual and strictly decreases once above all of them; if no member fits perfectly a best temperature exists, lies between the smallest and largest of these residuals and is their mean weighted by the members' likelihoods. Scaling logits, if every member has a best temperature of its own, then so has the ensemble, every one between the smallest and largest of the members', and the objective increases up to the smallest and decreases beyond the largest. On a single data point the objective is the predictive log-probability. False of the code: on several data points calibration can make the predictive log-probability of the calibration data itself worse, because the objective averages the likelihood of the whole data over the members and the predictive averages per point (two members, best temperature 8, worse than temperature 1).", "quantifier": "all ensembles, calibrators, data, sizes, dimensions, temperatures; real arithmetic; whole data in one batch", "why_tests_cant": "That temperatures are optimal or ordered for all ensembles is a statement over the reals; runs stop at some temperature and show no global optimum, and on usual test data the two objectives nearly agree.", "anchors": ["fortuna/prob_model/predictive/base.py:205", "fortuna/prob_model/predictive/base.py:132", "fortuna/output_calibrator/regression.py:14", "fortuna/output_calibrator/classification.py:14", "fortuna/likelihood/base.py:251"]}
{"id": "C149", "title": "What the spread of a deep ensemble says", "statement": "A deep-ensemble fit leaves exactly ensemble_size members, and member i is what a fit on its own from its start makes. Let members be trained by plain gradient descent without clipping, accumulation and early stopping. If all data are in one batch with a strongly concave log-joint and the learning rate is below 2 m / L^2, all members tend to the mode: for every statistic that changes by at most K times the distance from the mode and any draws of members, the predictive mean is within K r^n D of the mode's value and the epistemic variance at most (K r^n D)^2 after n epochs, for some r < 1 and starts within D of the mode. Also with mini-batches, members that see the same batches come closer to each other by the factor r at every step. For a one-dimensional Gaussian log-joint of variance v the epistemic variance after n epochs is exactly (1 - lr/v)^(2n) times that of the starts. False of the code: that the spread of the members estimates posterior uncertainty: as the epochs grow the epistemic variance tends to 0 although the posterior variance is v, and for n epochs with 4 n lr <= v it stays between half the spread of the starts and that spread, however large v is.", "quantifier": "all ensembles, sizes, starts, draws, numbers of samples and epochs, strongly concave log-joints, Lipschitz statistics, learning rates in the range", "why_tests_cant": "Limits over the epochs and bounds for all ensembles are not observable in a run; a test sees some positive epistemic variance and cannot say what it measures.", "anchors": ["fortuna/prob_model/posterior/deep_ensemble/deep_ensemble_posterior.py:112", "fortuna/prob_model/posterior/deep_ensemble/deep_ensemble_posterior.py:181", "fortuna/prob_model/posterior/deep_ensemble/deep_ensemble_posterior.py:196", "fortuna/prob_model/predictive/base.py:806", "fortuna/prob_model/predictive/base.py:624"]}
{"id": "C150", "title": "SGHMC with momentum on mini-batches of Gaussian data", "statement": "Posterior sampling with SGHMC (constant step size h, momentum decay d in [0,1), no preconditioning, no momentum resampling), when the unknown is the mean of independent normal data with known variances under a centred normal prior, so that the posterior is normal with variance s: given the mini-batches, each coordinate of each sample is normal, with the very variance it would have if the gradient were that of all the data, and with a mean that follows, with momentum, the posterior means of the batches (the centres). Batches visited in a fixed order: for h < 2(1+d)s the mean approaches a cycle of one epoch, the same from any start, whose average over the epoch is that of the centres. Batches drawn independently, with centres of mean mu and variance V: the mean tends to mu and the variance to s/(1-h/(2(1+d)s)) times 1+hV/(2(1-d)s^2). False of the code: that mini-batches leave the distribution of the samples alone, or that momentum averages their noise out: the integrator makes no allowance for the noise of the gradient, so the variance exceeds that without mini-batches, and the relative excess is 1/(1-d) times that of SGLD with the same step size, beyond any bound as d approaches one.", "quantifier": "All dimensions, data sizes, variances of likelihood and prior, sequences of non-empty batches, starts, numbers of steps, step sizes and momentum decays within the stated ranges, all independent draws of batches with finite variance.", "why_tests_cant": "The law of a sample and its limit in the number of steps are statements about distributions and about infinitely many steps; a test sees finitely many draws of one run.", "anchors": ["fortuna/prob_model/posterior/sgmcmc/sghmc/sghmc_integrator.py::sghmc_integrator", "fortuna/likelihood/base.py::Likelihood._batched_log_joint_prob", "fortuna/training/trainer.py::TrainerABC.training_step", "fortuna/prob_model/posterior/sgmcmc/sghmc/sghmc_callback.py::SGHMCSamplingCallback"]}
{"id": "C151", "title": "What a shuffled array loader yields in successive epochs", "statement": "Every pass over a loader built by DataLoader.from_array_data, InputsLoader.from_array_inputs or TargetsLoader.from_array_targets yields every row once; with shuffle and a batch size, in the order that numpy draws from the seed 0. A loader of inputs and a loader of targets built separately from arrays of the same length, both shuffled or both not, stay matched batch by batch with each other and with the data loader, in any passes. A training of e epochs visits the batches of the first pass e times over. SGLD that learns the mean of normal data from a shuffled loader (batch size dividing the number of rows, step size below twice the posterior variance): the mean of the samples approaches a cycle of one epoch whose average is the posterior mean. False of the code: 'shuffle: whether the data loader should shuffle at every call': all passes have the same batches in the same order, since a new generator is made from the fixed seed at every pass, and without a batch size nothing is shuffled; hence also that one SGLD sample per epoch has the right mean because the loader shuffles: with two batches of different centres it is off for ever.", "quantifier": "All arrays, batch sizes, flags, numbers of passes and epochs, whatever permutations numpy draws; all step sizes, variances and starts within the stated ranges.", "why_tests_cant": "A test sees finitely many passes of one loader with one data set, and a shuffled order looks random in each; the limit of the mean of a sample is a statement about distributions and infinitely many steps.", "anchors": ["fortuna/data/loader/utils.py::IterableData.from_batch_array_data", "fortuna/data/loader/utils.py::IterableData.from_array_data", "fortuna/data/loader/array_loaders.py::DataLoader.from_array_data", "fortuna/data/loader/array_loaders.py::InputsLoader.from_array_inputs", "fortuna/data/loader/array_loaders.py::TargetsLoader.from_array_targets"]}
{"id": "C152", "title": "SGLD on batches that are reshuffled in every epoch", "statement": "Let the unknown be the mean of normal data with known variances under a normal prior, and run SGLD (momentum decay 0, identity preconditioner) with a constant step size h on n batches of b rows, where every epoch takes the rows in an order drawn uniformly from all orders, independently of the other epochs and of the noise (a loader that really reshuffles: one around a torch loader with shuffle=True, or an iterable with seed None). Every batch then has the posterior mean as the mean of its centre, and the variance of an average of b rows drawn without replacement. If h < 2 sigma^2, the samples at the ends of the epochs have, in the long run and from any start, the posterior mean, and the variance sigma^2/(1 - h/(2 sigma^2)) + (h/sigma^2)^2 S/((nb-1)b) D/(1 - a^(2n)), where a = 1 - h/sigma^2, S is the sum of the squared deviations of the centres of the rows and D that of the powers a^0, ..., a^(n-1). After r further steps the mean is still the posterior mean and the variance is a^(2r) times that plus (h/sigma^2)^2 S/((nb-1)b) (sum of a^(2j) - (sum of a^j)^2/n) + 2h (sum of a^(2j)), sums over j < r. For h < sigma^2, n >= 2 and rows that differ the variance after any number of steps lies strictly above the variance without mini-batches and strictly below that with independently drawn batches of the same size. False: that reshuffling never does worse than independent draws: with two batches and sigma^2 < h < 2 sigma^2 its variance is larger.", "quantifier": "All numbers and sizes of batches, data, priors and variances > 0, step sizes 0 < h < 2 sigma^2, starts, and all probability spaces with such orders and noise.", "why_tests_cant": "Means and variances over all orders and all noise, in the limit of infinitely many epochs, cannot be seen in any finite number of seeded runs.", "anchors": ["fortuna/prob_model/posterior/sgmcmc/sghmc/sghmc_integrator.py::sghmc_integrator", "fortuna/data/loader/base.py::BaseDataLoaderABC.from_torch_data_loader", "fortuna/data/loader/utils.py::IterableData.from_batch_array_data", "fortuna/likelihood/base.py::Likelihood._batched_log_joint_prob"]}
{"id": "C153", "title": "What the metrics reported during the calibration of a probabilistic model are about", "statement": "While ProbModel.calibrate runs, the metrics of every training and validation step are given the predictions and uncertainties that prob_output_layer makes from the calibrated outputs averaged over the posterior ensemble: with pairwise different names other than 'loss' every metric is reported with its value there (in validation under 'val_' and its name) beside the loss, and nothing else. For a classifier with temperature scaling the predictions are, at every temperature, those of the averaged uncalibrated outputs, so metrics that do not look at the uncertainties (accuracy) are reported with the same value at any two temperatures. If all members have the same first class, or there is only one member, the reported prediction is the mode of the predictive (with one member also the probabilities are those of its mean). For a regressor the reported predictions are the predictive mean; the reported uncertainty is at most the predictive aleatoric variance and falls short of the predictive variance by at least the spread of the members' means. False of the code: that the reported metrics are those of the model's own predictions: for three members the reported class is 0 and predictive.mode gives 1; that temperature scaling leaves the predicted classes of the model alone: predictive.mode of the same ensemble changes between the temperatures 1 and 2 while the reported accuracy stands still; that the reported uncertainty of a regressor is its predictive variance.", "quantifier": "All ensembles, numbers of members, rows, classes and dimensions, temperatures, metrics; one device; calibrators that treat every row by itself without a state; exact arithmetic.", "why_tests_cant": "The statements are about all ensembles and temperatures; tests of calibrate check that a status with some values is returned, and with one posterior sample the two predictions agree.", "anchors": ["fortuna/prob_model/predictive/base.py::Predictive._batched_log_joint_prob", "fortuna/training/output_calibrator.py::OutputCalibratorABC.training_step_end", "fortuna/training/output_calibrator.py::OutputCalibratorABC.val_metrics_step", "fortuna/prob_model/base.py::ProbModel._calibrate", "fortuna/prob_model/predictive/classification.py::ClassificationPredictive.mode"]}
{"id": "C154", "title": "What the effective sample size stands for", "statement": "The autocovariances inside effective_sample_size, computed by Fourier transforms of the zero-padded chain, are at every lag k exactly the sums of products of the centred samples k apart, divided by their number n - k. For a chain that is not constant and a threshold t <= 1 the result is the documented formula N / (1 + 2 ((N-1)/N R_1 + ... + 1/N R_(N-1))) with the estimated autocorrelations replaced by zero from the first below t on. The documented formula means what its name says: whenever the covariance of two samples depends on their distance only, the variance of the average of N samples is the variance of one sample divided by the formula taken at the true autocorrelations. For SGLD with constant step size h on a Gaussian posterior of variance sigma^2 the autocorrelation at lag k is (1 - h/sigma^2)^k at every time; if h < 2 sigma^2, the share of the samples that count tends to h/(2 sigma^2 - h), and N times the variance of the average of the first N samples tends to 2 sigma^4/h, from any start, so the smaller the steps, the noisier the averages of a given number of samples. False of the code: that the function estimates the documented quantity: for negatively correlated chains, such as SGLD with sigma^2 < h < 2 sigma^2, the documented quantity exceeds N for every N >= 2, and the function with a threshold between 0 and 1 never returns more than N.", "quantifier": "all chains, lengths, lags, thresholds; all square-integrable processes with covariances depending on the lag; all step sizes, variances, starts", "why_tests_cant": "The meaning of the number is a statement about the variance of averages over all runs and in the limit of long chains; a test can only compare the returned number on a few chains with another implementation of the same formula.", "anchors": ["fortuna/prob_model/posterior/sgmcmc/sgmcmc_diagnostic.py::effective_sample_size", "fortuna/prob_model/posterior/sgmcmc/sghmc/sghmc_integrator.py::sghmc_integrator"]}
{"id": "C155", "title": "What ADVI's loss says about its samples, on any posterior", "statement": "Training ADVI with independent standard normal base draws, for any log-joint that is integrable under the approximate posterior (the independent normals with the current means and standard deviations exp(log_std)*exp(log_std_base), which is the law of what sample() draws): (a) whatever the number of base samples, the expected training loss is the average of the negative log-joint under the approximate posterior minus the sum of the log-standard deviations. (b) If the posterior is proper, the expected loss is never below -log(evidence) + d*(log_std_base + (1 + log 2 pi)/2), with d the number of parameters; the gap between the two is the Kullback-Leibler divergence of the approximate posterior from the posterior and vanishes exactly if they are equal. So the reported loss is not minus a lower bound on the log-evidence: it is off by that constant, which depends on d and on the base alone and hence does not change what is minimised. (c) The gap bounds the error of everything computed from the samples: for a quantity with values between lo and up, its mean under the approximate posterior is off from its posterior mean by at most (up - lo)*sqrt(gap/2), and the probability of any set of parameters by at most sqrt(gap/2). (d) If the log-joint is concave, every local minimum of the expected loss in the means and log-standard deviations is a global minimum, and all global minima have the same standard deviations. (e) With a Gaussian prior and a concave log-likelihood that is bounded above there is exactly one minimum. In particular for a linear softmax classifier with the isotropic Gaussian prior, on any data with labels in range, there is exactly one, and every local minimum is this one.", "quantifier": "Every number of parameters, every number of base samples > 0, every negative log-joint integrable under the approximate posterior ((b), (c): with integrable exponential; (d): convex and integrable under every approximate posterior), every base log-std, every means and log-stds, every probability space carrying the base draws; (e) also every prior variance, every data set.", "why_tests_cant": "A test trains on one data set and compares point values. That the loss bounds the evidence for every posterior, that its gap bounds every error, and that no spurious local minimum exists, are statements about all distributions and all parameters.", "anchors": ["fortuna/prob_model/posterior/normalizing_flow/normalizing_flow_trainer.py::NormalizingFlowTrainer.training_loss_step", "fortuna/prob_model/posterior/normalizing_flow/advi/advi_architecture.py::ADVIArchitecture.forward", "fortuna/prob_model/posterior/normalizing_flow/advi/advi_posterior.py::ADVIPosterior.fit", "fortuna/distribution/gaussian.py::DiagGaussian", "fortuna/prob_model/prior/gaussian.py::IsotropicGaussianPrior", "fortuna/model/linear.py::LinearModel"]}
{"id": "C156", "title": "What an ADVI or Laplace fit says about new data", "statement": "ADVI with the isotropic Gaussian prior: (a) the expected training loss is the average negative log-likelihood under the approximate posterior, plus KL, plus a constant (number of parameters times log_std_base + (1 + log 2 pi)/2), where KL is the Kullback-Leibler divergence of the approximate posterior from the prior. It has the closed form sum over the parameters of 1/2*(exp(-log_var)*(mean^2 + std^2) - 1 - log(exp(-log_var)*std^2)), so that it can be computed from a fitted posterior. (b) For n independent training points, any error measure with values in [0,1] and any lambda, delta > 0 chosen beforehand: with probability at least 1 - delta over the training data, for all means and log-standard deviations at once - hence for those the fit returns, however it was run and stopped - the average error on new data of a parameter vector drawn by sample() is at most its average error on the training data plus (KL + log(1/delta))/lambda + lambda/(8n). (c) For any classifier, the Brier score on new data of the predictive probabilities (the average of the class probabilities over the approximate posterior) is likewise at most the average Brier score of single draws on the training data plus twice that amount. (d) The draws of the Laplace approximation around any parameters, with a diagonal of the likelihood's curvature h that is 0 or more, have such a law; their divergence from the prior is the sum over the parameters of 1/2*(exp(-log_var)*mean^2 + exp(-log_var)/(exp(-log_var) + h) - 1 + log(1 + exp(log_var)*h)), and (b) holds for them at all parameters and curvatures at once. (e) If the prior log-variance is itself picked from a finite grid by looking at data, as fit does when tune_prior_log_variance is on, (d) still holds with log(K/delta) in place of log(1/delta), K being the number of candidates, whatever the rule of the choice.", "quantifier": "Every number of parameters, every prior log-variance, base log-std, means and log-stds; every distribution of the data, every measurable model and error with values in [0,1] ((c): every measurable class probabilities), every n > 0, lambda > 0, delta > 0; (d) every mean, every h >= 0. (b)-(d): the prior's variance is fixed before the data are seen; (e): every nonempty finite grid fixed before the data are seen.", "why_tests_cant": "Tests see a few data sets. The guarantee is about the probability over all data sets and holds for all fitted parameters at once.", "anchors": ["fortuna/prob_model/posterior/normalizing_flow/normalizing_flow_trainer.py::NormalizingFlowTrainer.training_loss_step", "fortuna/prob_model/posterior/normalizing_flow/advi/advi_posterior.py::ADVIPosterior.fit", "fortuna/prob_model/posterior/normalizing_flow/advi/advi_posterior.py::ADVIPosterior.sample", "fortuna/prob_model/prior/gaussian.py::IsotropicGaussianPrior", "fortuna/metric/classification.py::brier_score", "fortuna/prob_model/posterior/laplace/laplace_posterior.py::LaplacePosterior.sample", "fortuna/prob_model/posterior/laplace/laplace_posterior.py::LaplacePosterior.prior_log_variance_tuning"]}
{"id": "C157", "title": "What early stopping on validation data says about new data", "statement": "Training with validation after every epoch and early stopping (patience p > 0, min_delta d >= 0): validation decides when to stop and nothing else, so the state a fit ends with after t epochs is the one training alone reaches after t epochs, and the recorded values are the metric at the states on the way. Let the monitored value be an average over m validation rows of a per-row value in [a,b], lower being better in mode min and higher in mode max, the rows being independent draws. Then, except with probability 2 n exp(-2 m eps^2/(b-a)^2), for a fit of at most n epochs and whenever it stops: (i) every recorded value is within eps of the expected value on a new row of that epoch's state; (ii) the state whose value is on record as the best is, on new data, at most d + 2 eps worse than the state after any epoch run; (iii) if the fit stopped early, there is an earlier state on which none of the last p + 1 epochs improved by more than d + 2 eps on new data. All of this holds as well of the calibration of a fitted model's outputs with early stopping, which always minimises. False of the code: that the fit returns, or leaves a checkpoint of, the state on record as the best: with a loss that is 0 after the first epoch and 1 afterwards, the state returned and the only checkpoint left have loss 1.", "quantifier": "Every training step, data, number of epochs, gradient accumulation, checkpoint settings; every patience > 0, min_delta >= 0, mode min, or mode max (which runs exactly as mode min of the negated value); every measurable per-row value in [a,b]; every m > 0, n, eps >= 0.", "why_tests_cant": "The number of epochs and the best state are themselves picked by the validation data, so no fixed test shows that the picked values are not optimistic; the claim is about all distributions, models and stopping times at once.", "anchors": ["fortuna/training/trainer.py::TrainerABC.train", "fortuna/training/trainer.py::TrainerABC.validation_epoch_end", "fortuna/training/mixin.py::WithEarlyStoppingMixin.early_stopping_update", "fortuna/training/output_calibrator.py::OutputCalibratorABC.train"]}
