# Design of the formal model

Source: `awslabs/fortuna` at the pinned commit in `/repo` (read as text only, never run).
Model and proofs: Lean 4.33.0 and selected Mathlib modules, in `lean/Verif/`.
The properties are in `properties.jsonl`, the theorems proving them in `MANIFEST.json`, the wrong programs tried against
them in `seeded/LOG.jsonl`.

## Trusted base

* Lean's kernel, and the axioms `propext`, `Classical.choice`, `Quot.sound`. `Verif/Audit.lean` walks over every constant of
  the project while it is built, and the build fails if one of them depends on anything else. Proofs by computation use the
  kernel (`decide +kernel`, `rfl`), never the compiler.
* The reading of the Python code. Every model definition has a comment that names the file and lines it follows; where
  the model simplifies the code, that comment or the head of the model file says so.
* Contracts of external libraries (numpy, jax, flax, optax, scipy, Hugging Face), which are *modelled from their
  documentation*:
  - arrays are lists (of rows) or functions of an index; numbers are exact: an arbitrary ordered field, `ℚ`, or `ℝ` where
    `exp`, `log`, `sqrt`, `cos` occur. **Floating-point rounding and overflow are not modelled.** NaN is `none` where the code
    can produce it by a division by zero or a mean of nothing and a property depends on it.
  - `jnp.quantile` is linear interpolation between order statistics at position `q (n - 1)`, indices clamped.
  - `argmax` returns the first maximum; `linspace`, `split`, `unique`, `where`, `sort`, broadcasting as documented.
  - flax checkpoints: a directory is a finite map from steps to states; `save_checkpoint(overwrite=True, keep=k)` removes
    later steps and keeps the `k` highest; the latest checkpoint is the one with the highest step; tuples and objects come
    back as dictionaries.
  - flax `EarlyStopping`, `DynamicScale`; jax `pmap`, `lax.pmean`, `lax.cond`; `jax.random.split`/`fold_in` as free
    constructors (no collisions between different derivations); compiled functions return dictionaries with sorted keys.
  - flax `Dense`, `Conv`, pooling: weights for `Dense`, shapes only for the others.
  - pseudo-random choices (shuffles, bootstrap draws, normal variates) are universally quantified arguments.
  - optimizers, loss gradients, neural networks, tokenizers, language models, clustering are arbitrary functions.

## Conventions

* Exceptions are values (`Except String α` with the name of the Python class, or `Option`); loops are folds or structural
  recursion; in-place mutation returns the new value; a running program is an initial state and a step.
* `Verif/Model/*.lean` contain only definitions following the code. Specifications and lemmas are in `Verif/Lemmas/*.lean`
  and in the property files `Verif/Props/*.lean`, whose theorems are named `Cxx_…`. A specification is written without the
  model's helpers. Beside the theorems there are `example`s that meet their hypotheses.
* A claim that is false of the code has a theorem `Cxx_…_false` with a concrete witness. If the property as stated fails,
  the part that holds is a theorem `Cxx_…_partial` and the property has status `partial`; if the statement in
  `properties.jsonl` is already restricted to what holds (and says what does not), its status is `proved`.

## What is modelled

| model file | source (`/repo/fortuna/…`) |
|---|---|
| `ArrayOps`, `Quantile` | array primitives of jax.numpy used by the code |
| `ConformalClassification`, `AdaptivePrediction` | `conformal/classification/{base,simple_prediction,adaptive_prediction}.py`, CV+ classifiers, from scores and from probabilities (targets in range) |
| `AdaptiveConformal` | `adaptive_conformal_{classifier,regressor}.py` |
| `MaxCoverage` | `maxcovfixprec_binary_classfication.py` |
| `ConformalRegression` | `conformal/regression/{base,quantile,onedim_uncertainty,jackknifeplus,jackknife_minmax,cvplus,enbpi}.py` |
| `Multivalid`, `MultivalidEntry` | `conformal/multivalid/**` (iterative and one-shot, multicalibration and BatchMVP, loss mixins) |
| `Loader`, `LoaderViews` | `data/loader/{base,utils,array_loaders}.py` |
| `HuggingFace`, `TextBatch` | `data/dataset/*.py`, `data/loader/huggingface_loaders.py` |
| `NestedDict` | `utils/{nested_dicts,freeze,strings}.py`, splitting and merging of frozen parameters in `training/trainer.py` |
| `Training`, `TrainerMetrics` | `training/{mixin,trainer}.py`: steps, accumulation, clipping, dynamic scale, epochs, early stopping, checkpoints |
| `MultiDevice` | `training/trainer.py` `MultiDeviceMixin`, `JittedMixin` by equality of results |
| `StateRepo`, `SubsetRepo`, `Checkpoint` | `training/train_state_repository.py`, `posterior_multi_state_repository.py`, `sgmcmc_posterior_state_repository.py`, `training/mixin.py`, all train states |
| `FitStart` | `prob_model/posterior/base.py` and the start, save and load of every posterior |
| `SamplerRun`, `PosteriorSample` | `sghmc_posterior.py`, `cyclical_sgld_posterior.py` (fit), `sgmcmc_posterior.py`, with the trainer's freezing and final checkpoint |
| `SGMCMC`, `Diagnostic` | `prob_model/posterior/sgmcmc/**`, SWAG statistics, `utils/random.py` |
| `FitRun` | from the configuration to trainer, status and repository in the `fit` of every posterior |
| `TempFit` | temperatures fitted by grid search (`scipy.optimize.brute`; `fmin` assumed to leave its start only for a strictly better point) |
| `PredictiveMore` | entropies of regression predictions, credible intervals as arrays, conformal sets from loaders to sets |
| `Sharing` | what default arguments share: `prob_model/fit_config/*.py`, `prob_model/base.py`, the samplers' and SNGP's assignments to configurations |
| `GaussPost` | Laplace, ADVI, SWAG posteriors, `distribution/gaussian.py` |
| `Transformers` | loading, completing and calling the SNGP extractors made from pretrained transformers |
| `SwagRun` | the end of a SWAG fit, its checkpoint and `sample`, on CPU and devices |
| `AdviRun` | ADVI from fit to samples, `load_state` and further fits |
| `SNGP`, `SpectralConv`, `Probit`, `EditorApply` | `model/utils/{random_features,spectral_norm}.py` (and its use in `model/{mlp,resnet,wideresnet}.py` and the SNGP text models), SNGP posterior and model manager, `utils/{probit,grad}.py`, `model_editor/probit.py`, the editors in the model managers' `apply` |
| `LikelihoodApi` | the public methods of `likelihood/{base,classification,regression}.py` |
| `Wiring` | what `ProbClassifier`, `ProbRegressor` and `CalibClassifier` are put together from: `prob_model/{classification,regression}.py`, `calib_model/classification.py`, the enumerations of managers and posteriors, `SNGPPosteriorApproximator`, `_get_output_model` |
| `EnsembleTemp` | temperature scaling of ensembles of regression outputs and logits within `Predictive._batched_log_joint_prob`, and the per-row predictive log-probability it is compared with |
| `EnsembleFit` | the loop of `DeepEnsemblePosterior.fit` over its members and statistics of the members drawn by `sample` |
| `LoaderEpochs` | the shuffling of array loaders over several passes: seeds, passes, the batches of a training |
| `CalibMetrics` | the outputs averaged over the ensemble and the dictionaries of metrics of a calibration step; predictive mean, mode and variance of the same ensemble; one device, calibrators without a state |
| `Fft` | `prob_model/posterior/sgmcmc/sgmcmc_diagnostic.py`: the Fourier transforms and the padding inside `effective_sample_size` |
| `Likelihood`, `OutputLayer` | `likelihood/base.py`, `prob_model/joint/base.py`, `prob_output_layer/*.py`, `prob_model/prior/gaussian.py`, `output_calibrator/**`, model managers' `apply` |
| `Predictive` | `prob_model/predictive/*.py` |
| `ProbModel` | `prob_model/{base,classification,regression}.py`, calibration objective of `predictive/base.py` |
| `OutputCalib`, `CalibModel` | `output_calib_model/**`, `calib_model/**`, `training/output_calibrator.py`, `prob_model_calibrator.py` |
| `Calibration`, `Metrics` | `calibration/**`, `kernel_regression/**`, `loss/**`, `metric/*.py` |
| `Hallucination`, `Detector`, `StringClean`, `OOD` | `hallucination/**`, `ood_detection/*.py` |
| `Networks` | `model/*.py`, `utils/data.py` |
| `Monitor` | `fit_config/monitor.py`, `calib_config/monitor.py`, names and exceptions of `training/{trainer,mixin}.py`, `sghmc_approximator.py` |
| `Plot`, `Sagemaker` | `plot.py` up to the arrays that are drawn, `sagemaker/{base,utils}.py` up to the arguments of the job |
| `Utils` | `utils/{optimizer,training,device,builtins,data}.py` |

## What is not modelled

* `typing.py`, logging, progress bars, documentation, benchmarks and examples.
* The Hugging Face networks themselves (the modules under `prob_model/posterior/sngp/transformers/models`
  and `model/model_manager/transformers`) and the transformers library, which is used by its contract.
* The inside of neural networks other than dense ones (only shapes), automatic differentiation (gradients are arbitrary functions,
  except where a derivative is computed from its formula), compilation, asynchronous prefetching, device memory.
* Tensor flow and torch loaders (`from_tensorflow_data_loader`, `from_torch_loader`): one conversion per batch.
* Configuration classes (`fit_config`, `calib_config`, `config`): records of arguments, inlined where they are read.
* Drawing itself (colours, axes, `contourf`) and the AWS session: `plot.py` and `sagemaker/**` are modelled up to the arrays drawn and the arguments of the job.
* Arithmetic is exact: rounding, overflow and NaN appear only where a theorem says so. Random draws are independent draws of the law they are named after.

## Findings: what the code does although its documentation or interface suggests otherwise

Those with a theorem name are proved of the model.

*Conformal methods.* CV+ classification returns one set per fold and point (C05). Sets are ordered by score, not by
probability (C04). Clipping breaks the long-run bound of adaptive conformal prediction (C07). Jackknife+ uses the plain quantile,
so intervals can be inverted at large errors, and without test inputs all jackknife methods raise (C12); the documented coverage 1-α of jackknife-minmax fails for every n and every α < 1/2, and 1-2α of jackknife+ for α(n+3) < 1 (C102). The coverage guarantee of the split methods
stops at errors below 1/N, and the usual upper bound 1-error+1/(N+1) on it fails since the quantile is interpolated (C10). EnbPI's centre is contaminated by a zero row (C15), more than one new point per update is
rejected (C14), and its online intervals can cover less than 1-error, by up to 2/(n+1), since the quantile has no finite-sample correction (C137). `true_negative_coverage` uses the threshold rather than one minus it (C08). Multicalibration: the converged flag does not
mean calibrated (C20), multiplicative updates can give NaN (C16), the patch that triggers convergence is lost (C17), one-shot patches
depend on other rows (C57), its calibration ignores probabilities between the cells (C128), its one-dimensional loss is the sum over the rows although documented as a mean squared error (C136), BatchMVP's tie-breaking can increase its loss (C58), `_maybe_normalize` never normalizes. Targets of one class
only are refused, top-label targets out of range are not, and groups given at application without a fitted patch give `None` (C91). The '=' buckets do not cover [0, 1]: predictions in the gaps are never patched (C100).
Adaptive prediction sets always contain the least likely label and leave out the most likely ones first (C104). The sets of the CV+ classifiers
can miss the label with probability 1/2, however small the error (C105).
The coverage 1-error of split conformal methods is an average over calibration sets. One calibration set can cover fewer new points: any
fraction theta, with probability theta^n, whatever the error; a shortfall of eps has probability at most exp(-2 n eps^2) (C133). The
bias scaler's clipped probabilities can stay below the mean target however many rows there are (C134).

*Data.* Inputs and targets of different lengths are truncated silently, shuffling is ignored without batches (C21), sampling from an
empty loader does not terminate (C24). For text data the loader's size ignores `drop_last`, choices are dropped, and
labels equal to the padding token are lost (C82). `pad_to_multiple_of` is ignored in sequence classification, `max_length` and `padding`
in multiple choice; rows for masked language models grow beyond `max_length` to a multiple of 64 (C142). The check for random loaders looks at four batches only (C84).
A loader of targets taken from a data loader has no size, and loaders over iterators are empty from the second pass on (C92).

*Training.* Callbacks count steps within the epoch, the optimizer counts all of them; micro-batches of one accumulation share their key;
the best checkpoint is not protected, a rerun into the same directory is refused, and an epoch of fewer batches than the accumulation steps raises at its end (C62); early stopping therefore returns the last state, not the one on record as the best (C157). Accumulated gradients are lost at a restart
(C32) and poisoned by one overflow (C61). In half precision on several devices gradients are never averaged, and the returned network
state is that of device 0 (C88). Names of states longer than ten characters are scrambled by a restart (C30, C86); optimizer moments are lost
while the step count is kept (C86). Updating a repository is not atomic (C33). Schedules: warm-up steps are rounded down, and a warm-up
longer than training never decays (C83). Metrics with one name overwrite each other, also the loss; on several devices flow metrics compare
predictions with other rows' targets, and ADVI training ends with an exception (C94).

*Posteriors.* The cyclical SGLD callback counts one step ahead of the integrator (C36); `burnin_steps = 0` and `cycle_length = 0` give NaN (C37). With small steps the samples of cyclical SGLD vary less than the posterior, because the noise of the exploration phase is missing (C138). With a fixed learning rate a minibatch MAP fit does not converge to the mode, even of a Gaussian posterior (C139).
A pretrained SNGP extractor that is saved and loaded again silently gets fresh weights, and calling it without parameters but with collections changes it (C119).
After a SWAG fit on a GPU the returned statistics have an additional axis, so that sampling raises unless there is only one array (C118). SWAG's running mean divides by the epoch and not by the step, so that with many steps per epoch only the last epochs count and the variance of the mean does not fall with the number of steps (C117).
Averaging models can raise the root mean absolute error above the average of the models, and lower accuracy and calibration below every model (C122).
Temperature calibration has no optimum, and makes a classifier ever more confident, if it is right on all calibration data (C120).
Losses and metrics: the focal loss is minimised by probabilities that are less confident than the true ones (C112); the expected calibration error is too large on average and positive for calibrated confidences (C113). Credible intervals contain a target drawn from the predictive itself less often than stated (C114). The kernel Stein discrepancy of samples from the posterior itself is positive: its square has expectation of order 1/n (C115). Predictive estimates: `log_prob`, the epistemic variance and the total variance are too small on average, and with one sample all epistemic uncertainty is 0 (C109). With a constant step size the samplers settle at a distribution wider than the posterior (C108), wider still with random mini-batches, and with mini-batches in a fixed order one sample per epoch has a wrong mean (C121), and with step sizes of finite sum SGLD never forgets its start (C111). The Laplace approximation and the optimum of ADVI are narrower than a Gaussian posterior with correlated parameters (C110). SWAG with rank 1 keeps every column (C40). `RNG.get` can collide with its own split (C41). SGMCMC's repository fails on `get()` with a
selection (C63). SGMCMC posteriors: `save_state` ignores its directory, and after early stopping slots are empty or hold the samples of an earlier run (C101). Deep ensembles: `save_state` ignores its directory and a load checks the first member only (C75), so that a missing one fails when it is drawn (C93). Laplace tuning raises a
NameError on the CPU, and raises on several devices (C74). Under a diagonal prior with frozen parameters every Laplace sample raises (C135). ADVI and SWAG exchange parameters when more than ten paths are selected and the state was on disk (C76, C77). A further ADVI fit that trains parameters frozen in the first one raises, and one without freezing after one with freezing never completes (C103).
The probit model editor always raises in classification and with SNGP; SNGP applies any editor twice (C107). SNGP: momentum 0 gives a singular matrix; several devices use only a part of the data (C78). The spectral norm bound is only as
good as the power iteration (C79), which is never run in the SNGP text models (C125); the first convolution of the ResNets is normalised with another padding than it has, and `WithSpectralNorm` on
convolutions bounds the reshaped kernel only (C127). A first layer narrower than the inputs preserves no distances (C126). Calibrating an ensemble can lower the predictive log-probability of the calibration data, since the objective averages the likelihood of all data over the members instead of point by point (C148). The spread of a deep ensemble on a strongly log-concave posterior is the shrunken spread of its starts, not the posterior's (C149). SGHMC makes no allowance for the noise of mini-batch gradients, whose effect on the variance grows like 1/(1-d) with the momentum decay (C150). `shuffle=True` of the array loaders gives the same order in every epoch, although documented to shuffle at every call (C151). Effective sample size without threshold is infinite (C81). ADVI's reported loss is off from minus the evidence lower bound by a constant that grows with the number of parameters (C155). It never exceeds the number of samples, although the documented quantity does for negatively correlated chains, such as SGLD with a step size above the posterior variance (C154). Metrics reported while a probabilistic model is calibrated are those of the averaged outputs, not of the predictive: accuracy cannot move under temperature scaling although the model's own predictions can, and the reported variance of a regressor lacks the epistemic part (C153). A loader that really reshuffles costs SGLD less variance than independent batches for step sizes below the posterior variance and more above it (C152). `sghmc_integrator` resamples the momentum by setting it to zero, which makes the samples narrower than the posterior (C144). SGLD with the RMSprop preconditioner leaves out the term for the dependence of the preconditioner on the parameters, so it does not keep the posterior to first order in the step size; and where the gradient vanishes its noise has the variance `2h/eps`, ten million times `2h` by default (C145). A calibrator that mixes rows makes `Likelihood.mean`, `mode`, `variance` and `log_prob` depend on batches and devices and disagree with `sample`, `entropy` and `get_calibrated_outputs` (C146). The masked output layer is chosen by class name, keyword arguments of a user's approximator are dropped with a transformers model, and `ProbRegressor` accepts SNGP but cannot fit it (C147).

*Configurations.* SWAG and the samplers ignore gradient clipping and accumulation, the samplers also callbacks. Early stopping always minimises: a metric like the
accuracy stops training after patience + 2 epochs if it improves, and samplers, whose loss is the log joint probability, stop when they improve and leave slots
empty. Cyclical SGLD and ensembles lose the status of the preliminary MAP; Laplace and the samplers ignore `dump_state` (C97).
`eval_every_n_epochs=None`, documented to disable validation, raises; metrics without `__name__` are accepted and raise in the first epoch; metrics `m` and `val_m` raise after the last (C132).

*Shared objects.* A sampler's fit assigns its integrator to the optimizer that all configurations made without one share, so that later MAP fits run it
instead of Adam; SNGP leaves a callback in the configuration at each fit; models without a prior of their own share one and its generator (C96).

*Prediction and calibration.* The documentation of `aleatoric_variance` and `epistemic_variance` gives each the formula of the other (C45). Predictive samples: a key raises, equal batches get equal noise, devices multiply the sample axis,
auxiliary outputs are never returned and make further batches look like further samples (C65). The two parts of the predictive variance use different samples (C45). Credible sets of error 0 have one label (C47). Estimates of the epistemic
entropy of regression can be negative (C98). Labels not numbered from 0 are no candidates of conformal sets (C64); an unknown interval type raises IndexError in the output layer (C48).
MCE is multiplied by bin counts (C43). A calibrator with state fails at its second step (C70, C85); calibration returns the last and not the best
state, counts `save_every_n_steps` in epochs, cannot monitor a maximised metric (C85). Models calibrated by a loss cannot have state (C87). With
several samples, minibatch objectives of calibration are biased; on accelerators the data size is wrong; restored from a directory with a dumped state, calibration starts from the network's parameters (C89). In
`prob_output_layer` standard deviations of variances are not rooted, and masked classes are not renormalised (C66). Regression model
manager: the state of the log-variance network is overwritten (C71). A diagonal prior broadcasts with a single parameter (C68).

*Plots and jobs.* The plot of a grid demands inputs or meshes too, and the regression plot refuses meshes of shape (n, 1) (C130). The documented configuration of a SageMaker job is refused, and a documented tuner ignored (C131).

*Other.* Mahalanobis scores do not change along directions without variance in the training features, however far one goes (C123). Regression metrics broadcast targets given as a vector against the column of predictions (C44). The F1 temperature scaler returns the temperature 0 when a probability is 0 and predicting 1 everywhere is best (C52). Kernel regression with constant targets is NaN (C53). Mahalanobis uses the minimum where the documentation says maximum (C72); in DDU a class with one
point makes `fit` raise a ZeroDivisionError, and a class without points makes every score at most 0 (C73). Hallucination scores depend on padding (C55); contexts in excess are ignored if the batch size divides the number of texts, and a refused `fit` destroys the earlier one (C99). Cleaning a text puts sentences after full stops and question marks in lower case, breaks decimal numbers and glues words at apostrophes (C143). Rows of groups and values beyond the number of scores are ignored (C91). Networks: dropout of the last hidden layer precedes its activation, the first
activation of residual networks and the `activation` of wide residual networks are ignored, small images leave no features (C90).

Read but not stated as theorems: `sum(unsupported_aux) > 0` raises a
TypeError in seven places instead of the intended message; `conformal_set` builds an object array from nested lists; SGHMC's documented
formula has `%` for `//`;
`onedim_uncertainty.py` L137 has a misspelt attribute.

## Properties

Theorems: positive ones, and refutations of stronger readings (`_false`).

| id | title | proofs in `Props/` | theorems | refutations | status |
|---|---|---|---|---|---|
@@TABLE@@
