{
 "claims": [
  {
   "property": "C01",
   "status": "proved",
   "theorems": [
    "Verif.Props.C01_conformal_sets_exact",
    "Verif.Props.C01_is_in",
    "Verif.Props.C01_simple"
   ],
   "note": ""
  },
  {
   "property": "C02",
   "status": "proved",
   "theorems": [
    "Verif.Props.C02_nested",
    "Verif.Props.C02_extremes"
   ],
   "note": ""
  },
  {
   "property": "C03",
   "status": "proved",
   "theorems": [
    "Verif.Props.C03_leave_one_out_coverage",
    "Verif.Props.C03_exchangeable_coverage"
   ],
   "note": ""
  },
  {
   "property": "C04",
   "status": "proved",
   "theorems": [
    "Verif.Props.C04_upward_closed",
    "Verif.Props.C04_most_likely_first_false",
    "Verif.Props.C04_least_likely_first_partial"
   ],
   "note": "Theorems ending in _false exhibit inputs on which a stronger reading of the claim fails."
  },
  {
   "property": "C05",
   "status": "proved",
   "theorems": [
    "Verif.Props.C05_cvplus_count",
    "Verif.Props.C05_one_set_per_input_false",
    "Verif.Props.C05_sets"
   ],
   "note": "Theorems ending in _false exhibit inputs on which a stronger reading of the claim fails."
  },
  {
   "property": "C06",
   "status": "proved",
   "theorems": [
    "Verif.Props.C06_update_in_unit_interval",
    "Verif.Props.C06_run_in_unit_interval",
    "Verif.Props.C06_direction",
    "Verif.Props.C06_accepts_iff",
    "Verif.Props.C06_weighted_update",
    "Verif.Props.C06_unweighted_update",
    "Verif.Props.C06_weighted_run",
    "Verif.Props.C06_weighted_length"
   ],
   "note": ""
  },
  {
   "property": "C07",
   "status": "proved",
   "theorems": [
    "Verif.Props.C07_long_run_miscoverage",
    "Verif.Props.C07_one_sided",
    "Verif.Props.C07_one_sided_below",
    "Verif.Props.C07_with_clipping_false"
   ],
   "note": "The two-sided bound with clipping is refuted. Theorems ending in _false exhibit inputs on which a stronger reading of the claim fails."
  },
  {
   "property": "C08",
   "status": "proved",
   "theorems": [
    "Verif.Props.C08_metrics",
    "Verif.Props.C08_reported",
    "Verif.Props.C08_positive",
    "Verif.Props.C08_negative",
    "Verif.Props.C08_apply_range",
    "Verif.Props.C08_fitted",
    "Verif.Props.C08_no_patches",
    "Verif.Props.C08_single_point_false",
    "Verif.Props.C08_true_negative_coverage_false",
    "Verif.Props.C08_coverages"
   ],
   "note": "Theorems ending in _false exhibit inputs on which a stronger reading of the claim fails."
  },
  {
   "property": "C09",
   "status": "proved",
   "theorems": [
    "Verif.Props.C09_quantile_membership",
    "Verif.Props.C09_onedim_membership"
   ],
   "note": ""
  },
  {
   "property": "C10",
   "status": "proved",
   "theorems": [
    "Verif.Props.C10_quantile_leave_one_out",
    "Verif.Props.C10_onedim_leave_one_out",
    "Verif.Props.C10_quantile_exchangeable",
    "Verif.Props.C10_onedim_exchangeable",
    "Verif.Props.C10_small_error_false",
    "Verif.Props.RegressionCoverage.C10_quantile_data",
    "Verif.Props.RegressionCoverage.C10_onedim_data",
    "Verif.Props.RegressionCoverage.C10_usual_upper_bound_false"
   ],
   "note": "Theorems ending in _false exhibit inputs on which a stronger reading of the claim fails."
  },
  {
   "property": "C11",
   "status": "proved",
   "theorems": [
    "Verif.Props.C11_quantile_nested",
    "Verif.Props.C11_onedim_nested",
    "Verif.Props.C11_jackknifeplus_nested",
    "Verif.Props.C11_minmax_nested",
    "Verif.Props.C11_cvplus_nested"
   ],
   "note": ""
  },
  {
   "property": "C12",
   "status": "proved",
   "theorems": [
    "Verif.Props.C12_jackknifeplus_proper",
    "Verif.Props.C12_cvplus_proper",
    "Verif.Props.C12_minmax_proper",
    "Verif.Props.C12_minmax_contains_plus",
    "Verif.Props.C12_jackknifeplus_large_error_false",
    "Verif.Props.C12_jackknifeplus_accepts",
    "Verif.Props.C12_minmax_accepts",
    "Verif.Props.C12_cvplus_accepts",
    "Verif.Props.C12_refuses",
    "Verif.Props.C12_no_inputs_false"
   ],
   "note": "Theorems ending in _false exhibit inputs on which a stronger reading of the claim fails."
  },
  {
   "property": "C13",
   "status": "proved",
   "theorems": [
    "Verif.Props.C13_cvplus_singleton_folds",
    "Verif.Props.C13_order_within_folds",
    "Verif.Props.C13_order_of_folds"
   ],
   "note": ""
  },
  {
   "property": "C14",
   "status": "proved",
   "theorems": [
    "Verif.Props.C14_sliding_window",
    "Verif.Props.C14_nonneg",
    "Verif.Props.C14_total",
    "Verif.Props.C14_multiple_new_times_rejected"
   ],
   "note": ""
  },
  {
   "property": "C15",
   "status": "proved",
   "theorems": [
    "Verif.Props.C15_out_of_bag",
    "Verif.Props.C15_residual_value",
    "Verif.Props.C15_test_value",
    "Verif.Props.C15_residuals_nonneg",
    "Verif.Props.C15_proper_equal_width",
    "Verif.Props.C15_online_proper",
    "Verif.Props.C15_centre_in_range",
    "Verif.Props.C15_centre_in_range_false"
   ],
   "note": "Theorems ending in _false exhibit inputs on which a stronger reading of the claim fails."
  },
  {
   "property": "C16",
   "status": "proved",
   "theorems": [
    "Verif.Props.C16_apply_patches_prob",
    "Verif.Props.C16_accepts_iff",
    "Verif.Props.C16_calibrate_prob",
    "Verif.Props.C16_multiplicative_nan_false"
   ],
   "note": "Theorems ending in _false exhibit inputs on which a stronger reading of the claim fails."
  },
  {
   "property": "C17",
   "status": "proved",
   "theorems": [
    "Verif.Props.C17_round_count",
    "Verif.Props.C17_replay_losses",
    "Verif.Props.C17_losses_nonincreasing",
    "Verif.Props.C17_converged_meaning",
    "Verif.Props.C17_not_converged",
    "Verif.Props.C17_converged_values_replayed_false",
    "Verif.Props.C17_split_one_stores_nothing"
   ],
   "note": "Theorems ending in _false exhibit inputs on which a stronger reading of the claim fails."
  },
  {
   "property": "C18",
   "status": "proved",
   "theorems": [
    "Verif.Props.C18_rowwise",
    "Verif.Props.C18_append",
    "Verif.Props.C18_select",
    "Verif.Props.C18_no_patches"
   ],
   "note": ""
  },
  {
   "property": "C19",
   "status": "proved",
   "theorems": [
    "Verif.Props.MultivalidCells.C19_multiplicative_patch",
    "Verif.Props.MultivalidCells.C19_cell_mean_multiplicative",
    "Verif.Props.MultivalidCells.C19_loss_value",
    "Verif.Props.MultivalidCells.C19_mean_squared_error_false",
    "Verif.Props.C19_squared_error_decrease",
    "Verif.Props.C19_squared_error_exact",
    "Verif.Props.C19_cell_mean",
    "Verif.Props.C19_training_loss_never_increases"
   ],
   "note": "Theorems ending in _false exhibit inputs on which a stronger reading of the claim fails."
  },
  {
   "property": "C20",
   "status": "proved",
   "theorems": [
    "Verif.Props.C20_bucket_types",
    "Verif.Props.C20_worst_cell",
    "Verif.Props.C20_converged_calibrated_false"
   ],
   "note": "Theorems ending in _false exhibit inputs on which a stronger reading of the claim fails."
  },
  {
   "property": "C21",
   "status": "proved",
   "theorems": [
    "Verif.Props.C21_targets_loader",
    "Verif.Props.C21_batches",
    "Verif.Props.C21_one_pass",
    "Verif.Props.C21_batch_sizes",
    "Verif.Props.C21_to_array_data",
    "Verif.Props.C21_inputs_loader",
    "Verif.Props.C21_mismatch_rejected_false",
    "Verif.Props.C21_shuffle_without_batches_false"
   ],
   "note": "Theorems ending in _false exhibit inputs on which a stronger reading of the claim fails."
  },
  {
   "property": "C22",
   "status": "proved",
   "theorems": [
    "Verif.Props.C22_chop",
    "Verif.Props.C22_idempotent",
    "Verif.Props.C22_inputs"
   ],
   "note": ""
  },
  {
   "property": "C23",
   "status": "proved",
   "theorems": [
    "Verif.Props.C23_split",
    "Verif.Props.C23_partition"
   ],
   "note": ""
  },
  {
   "property": "C24",
   "status": "proved",
   "theorems": [
    "Verif.Props.C24_sample",
    "Verif.Props.C24_terminates",
    "Verif.Props.C24_empty_terminates_false",
    "Verif.Props.C24_without_replacement_false"
   ],
   "note": "Theorems ending in _false exhibit inputs on which a stronger reading of the claim fails."
  },
  {
   "property": "C25",
   "status": "proved",
   "theorems": [
    "Verif.Props.C25_concat_loaders",
    "Verif.Props.C25_concatenate",
    "Verif.Props.C25_interpose",
    "Verif.Props.C25_modes",
    "Verif.Props.C25_transform"
   ],
   "note": ""
  },
  {
   "property": "C26",
   "status": "proved",
   "theorems": [
    "Verif.Props.C26_shard",
    "Verif.Props.C26_map",
    "Verif.Props.C26_chop_then_shard"
   ],
   "note": ""
  },
  {
   "property": "C27",
   "status": "proved",
   "theorems": [
    "Verif.Props.C27_get_set",
    "Verif.Props.C27_frame",
    "Verif.Props.C27_set_get",
    "Verif.Props.C27_missing_raises",
    "Verif.Props.C27_allow",
    "Verif.Props.C27_set_many"
   ],
   "note": ""
  },
  {
   "property": "C28",
   "status": "proved",
   "theorems": [
    "Verif.Props.C28_round_trip",
    "Verif.Props.C28_overlapping_false"
   ],
   "note": "Theorems ending in _false exhibit inputs on which a stronger reading of the claim fails."
  },
  {
   "property": "C29",
   "status": "proved",
   "theorems": [
    "Verif.Props.C29_frozen_never_change",
    "Verif.Props.C29_trainable_merged",
    "Verif.Props.C29_split_merge",
    "Verif.Props.C29_bad_label_rejected",
    "Verif.Props.C29_no_freeze_fun_paths_false",
    "Verif.Props.C29_optimizer_state",
    "Verif.Props.C29_bad_label_optimizer"
   ],
   "note": "Theorems ending in _false exhibit inputs on which a stronger reading of the claim fails."
  },
  {
   "property": "C30",
   "status": "proved",
   "theorems": [
    "Verif.Props.C30_nothing_lost",
    "Verif.Props.C30_round_trip_iff",
    "Verif.Props.C30_round_trip",
    "Verif.Props.C30_eleven_false"
   ],
   "note": "Theorems ending in _false exhibit inputs on which a stronger reading of the claim fails."
  },
  {
   "property": "C31",
   "status": "proved",
   "theorems": [
    "Verif.Props.C31_stop_min",
    "Verif.Props.C31_stop_max",
    "Verif.Props.C31_inactive",
    "Verif.Props.C31_stop_zero_delta",
    "Verif.Props.C31_epochs_run"
   ],
   "note": ""
  },
  {
   "property": "C32",
   "status": "proved",
   "theorems": [
    "Verif.Props.C32_accumulation",
    "Verif.Props.C32_plain",
    "Verif.Props.C32_resume_false"
   ],
   "note": "Theorems ending in _false exhibit inputs on which a stronger reading of the claim fails."
  },
  {
   "property": "C33",
   "status": "proved",
   "theorems": [
    "Verif.Props.C33_disk_history",
    "Verif.Props.C33_memory_history",
    "Verif.Props.C33_extract",
    "Verif.Props.C33_crash_atomic_false",
    "Verif.Props.C33_explicit_path_false",
    "Verif.Props.C33_get_with_optimizer"
   ],
   "note": "Theorems ending in _false exhibit inputs on which a stronger reading of the claim fails."
  },
  {
   "property": "C34",
   "status": "proved",
   "theorems": [
    "Verif.Props.C34_put_get",
    "Verif.Props.C34_init",
    "Verif.Props.C34_update_isolated",
    "Verif.Props.C34_update_all",
    "Verif.Props.C34_all_in_order",
    "Verif.Props.C34_put_all_false",
    "Verif.Props.C34_pull",
    "Verif.Props.C34_pull_all"
   ],
   "note": "Theorems ending in _false exhibit inputs on which a stronger reading of the claim fails."
  },
  {
   "property": "C35",
   "status": "proved",
   "theorems": [
    "Verif.Props.C35_samples",
    "Verif.Props.C35_constructor",
    "Verif.Props.C35_never_more"
   ],
   "note": ""
  },
  {
   "property": "C36",
   "status": "proved",
   "theorems": [
    "Verif.Props.C36_phase",
    "Verif.Props.C36_samples",
    "Verif.Props.C36_phase_step",
    "Verif.Props.C36_phase_false"
   ],
   "note": "The exploration ratio is assumed positive where phases are compared. Theorems ending in _false exhibit inputs on which a stronger reading of the claim fails."
  },
  {
   "property": "C37",
   "status": "proved",
   "theorems": [
    "Verif.Props.C37_constant",
    "Verif.Props.C37_cosine",
    "Verif.Props.C37_polynomial",
    "Verif.Props.C37_robbins_monro",
    "Verif.Props.C37_burnin",
    "Verif.Props.C37_burnin_zero_false",
    "Verif.Props.C37_burnin_zero",
    "Verif.Props.C37_cyclical",
    "Verif.Props.C37_cycle_start_false"
   ],
   "note": "Real arithmetic. C37_burnin_zero_false, C37_cycle_start_false: corners where the expectation fails. Theorems ending in _false exhibit inputs on which a stronger reading of the claim fails."
  },
  {
   "property": "C38",
   "status": "proved",
   "theorems": [
    "Verif.Props.C38_moments",
    "Verif.Props.C38_moments_range",
    "Verif.Props.C38_algebra",
    "Verif.Props.C38_identity"
   ],
   "note": ""
  },
  {
   "property": "C39",
   "status": "proved",
   "theorems": [
    "Verif.Props.C39_sgld_rmsprop",
    "Verif.Props.C39_sgld_identity",
    "Verif.Props.C39_resample",
    "Verif.Props.C39_momentum",
    "Verif.Props.C39_fresh_noise",
    "Verif.Props.C39_cyclical"
   ],
   "note": ""
  },
  {
   "property": "C40",
   "status": "proved",
   "theorems": [
    "Verif.Props.C40_variance_nonneg",
    "Verif.Props.C40_mean",
    "Verif.Props.C40_mean_per_step_false",
    "Verif.Props.C40_deviations",
    "Verif.Props.C40_rank_one_false"
   ],
   "note": "False corners proved separately: rank 1 keeps every column (C40_rank_one_false), several updates per epoch do not average (C40_mean_per_step_false). Theorems ending in _false exhibit inputs on which a stronger reading of the claim fails."
  },
  {
   "property": "C41",
   "status": "proved",
   "theorems": [
    "Verif.Props.C41_distinct",
    "Verif.Props.C41_seeds",
    "Verif.Props.C41_split_collision_false"
   ],
   "note": "Free-key model of jax.random.split. C41_split_collision_false: splitting a returned key reproduces the next key. Theorems ending in _false exhibit inputs on which a stronger reading of the claim fails."
  },
  {
   "property": "C42",
   "status": "proved",
   "theorems": [
    "Verif.Props.C42_bins",
    "Verif.Props.C42_meaning",
    "Verif.Props.C42_range",
    "Verif.Props.C42_large",
    "Verif.Props.C42_perfect",
    "Verif.Props.C42_perm"
   ],
   "note": ""
  },
  {
   "property": "C43",
   "status": "proved",
   "theorems": [
    "Verif.Props.C43_meaning",
    "Verif.Props.C43_range",
    "Verif.Props.C43_range_false"
   ],
   "note": "Theorems ending in _false exhibit inputs on which a stronger reading of the claim fails."
  },
  {
   "property": "C44",
   "status": "proved",
   "theorems": [
    "Verif.Props.C44_accuracy",
    "Verif.Props.C44_picp",
    "Verif.Props.C44_brier_row",
    "Verif.Props.C44_brier",
    "Verif.Props.C44_brier_binary",
    "Verif.Props.C44_rmse",
    "Verif.Props.C44_picp_shapes",
    "Verif.Props.C44_flat_single",
    "Verif.Props.C44_flat_false"
   ],
   "note": "Theorems ending in _false exhibit inputs on which a stronger reading of the claim fails."
  },
  {
   "property": "C45",
   "status": "proved",
   "theorems": [
    "Verif.Props.C45_parts",
    "Verif.Props.C45_total",
    "Verif.Props.C45_variance_rng_false",
    "Verif.Props.C45_passed",
    "Verif.Props.C45_passed_total",
    "Verif.Props.C45_documented_false"
   ],
   "note": "variance(rng=...) splits the key before each part, so the two parts use different samples: C45_variance_rng_false gives a Bernoulli variance of 1/2. Theorems ending in _false exhibit inputs on which a stronger reading of the claim fails."
  },
  {
   "property": "C46",
   "status": "proved",
   "theorems": [
    "Verif.Props.C46_decomposition",
    "Verif.Props.C46_meaning",
    "Verif.Props.C46_range",
    "Verif.Props.C46_agree"
   ],
   "note": ""
  },
  {
   "property": "C47",
   "status": "proved",
   "theorems": [
    "Verif.Props.C47_minimal",
    "Verif.Props.C47_zero_false"
   ],
   "note": "False at error=0, where the set falls back to one label (C47_zero_false); the theorem is for 0 < error <= 1. Theorems ending in _false exhibit inputs on which a stronger reading of the claim fails."
  },
  {
   "property": "C48",
   "status": "proved",
   "theorems": [
    "Verif.Props.C48_quantile",
    "Verif.Props.C48_interval",
    "Verif.Props.C48_one_tailed",
    "Verif.Props.C48_rows",
    "Verif.Props.C48_unknown_type_false"
   ],
   "note": "Theorems ending in _false exhibit inputs on which a stronger reading of the claim fails."
  },
  {
   "property": "C49",
   "status": "proved",
   "theorems": [
    "Verif.Props.C49_log_mean",
    "Verif.Props.C49_bounds",
    "Verif.Props.C49_jensen"
   ],
   "note": ""
  },
  {
   "property": "C50",
   "status": "proved",
   "theorems": [
    "Verif.Props.C50_rows",
    "Verif.Props.C50_empty",
    "Verif.Props.C50_ensemble"
   ],
   "note": "The row-wise statistic and the ensemble loops; sample() is C65."
  },
  {
   "property": "C51",
   "status": "proved",
   "theorems": [
    "Verif.Props.C51_epoch",
    "Verif.Props.C51_size_weighted",
    "Verif.Props.C51_full",
    "Verif.Props.C51_ragged_false",
    "Verif.Props.C51_prior"
   ],
   "note": "Equal batches (C51_epoch), any batches weighted by size (C51_size_weighted). C51_ragged_false: with a smaller last batch the plain epoch mean differs. Theorems ending in _false exhibit inputs on which a stronger reading of the claim fails."
  },
  {
   "property": "C52",
   "status": "proved",
   "theorems": [
    "Verif.Props.C52_binary",
    "Verif.Props.C52_decision",
    "Verif.Props.C52_bias",
    "Verif.Props.C52_fitted",
    "Verif.Props.C52_brier",
    "Verif.Props.C52_f1",
    "Verif.Props.C52_rows",
    "Verif.Props.C52_predict",
    "Verif.Props.C52_negative_false",
    "Verif.Props.C52_logits",
    "Verif.Props.C52_loss",
    "Verif.Props.TempFit.C52_brute",
    "Verif.Props.TempFit.C52_f1_fit",
    "Verif.Props.TempFit.C52_f1_zero_false",
    "Verif.Props.TempFit.C52_ce_fit",
    "Verif.Props.TempFit.C52_ce_loss",
    "Verif.Props.TempFit.C52_class_fit",
    "Verif.Props.TempFit.C52_class_one_false"
   ],
   "note": "The search for the temperature (scipy brute with its final local search) is not modelled: the theorems hold for every temperature it may return, positive ones unless stated. C52_negative_false is the negative-temperature corner. Theorems ending in _false exhibit inputs on which a stronger reading of the claim fails."
  },
  {
   "property": "C53",
   "status": "proved",
   "theorems": [
    "Verif.Props.C53_mean",
    "Verif.Props.C53_range",
    "Verif.Props.C53_perm",
    "Verif.Props.C53_kernel",
    "Verif.Props.C53_defined",
    "Verif.Props.C53_constant_false",
    "Verif.Props.KernelLimits.C53_density",
    "Verif.Props.KernelLimits.C53_narrow",
    "Verif.Props.KernelLimits.C53_wide"
   ],
   "note": "Exact arithmetic: underflow of the kernel weights to zero (0/0) is the only NaN source not covered besides constant targets, which C53_constant_false records. Theorems ending in _false exhibit inputs on which a stronger reading of the claim fails."
  },
  {
   "property": "C54",
   "status": "proved",
   "theorems": [
    "Verif.Props.C54_cross_entropy",
    "Verif.Props.C54_focal",
    "Verif.Props.C54_scaled_mse"
   ],
   "note": "Labels in range; real arithmetic."
  },
  {
   "property": "C55",
   "status": "proved",
   "theorems": [
    "Verif.Props.C55_balance",
    "Verif.Props.C55_balance_empty",
    "Verif.Props.C55_batches",
    "Verif.Props.C55_groups",
    "Verif.Props.C55_predict",
    "Verif.Props.C55_hard",
    "Verif.Props.C55_fit_groups",
    "Verif.Props.C55_soft_false",
    "Verif.Props.C55_best_model",
    "Verif.Props.C55_score",
    "Verif.Props.C55_no_tokens_false",
    "Verif.Props.C55_alone",
    "Verif.Props.C55_model_input",
    "Verif.Props.C55_padding_false"
   ],
   "note": "Language model, tokenizer (right padding) and clustering are external and arbitrary. C55_padding_false and C55_soft_false are the corners where the expectation fails. Theorems ending in _false exhibit inputs on which a stronger reading of the claim fails."
  },
  {
   "property": "C56",
   "status": "proved",
   "theorems": [
    "Verif.Props.C56_batch_mvp_range",
    "Verif.Props.C56_calibration_error_range",
    "Verif.Props.C56_zero_error_calibrated_false"
   ],
   "note": "Theorems ending in _false exhibit inputs on which a stronger reading of the claim fails."
  },
  {
   "property": "C57",
   "status": "proved",
   "theorems": [
    "Verif.Props.MultivalidCells.C57_cell",
    "Verif.Props.MultivalidCells.C57_patch_value",
    "Verif.Props.MultivalidCells.C57_apply_exact",
    "Verif.Props.C57_one_shot_patches",
    "Verif.Props.C57_one_shot_apply",
    "Verif.Props.C57_rowwise_false"
   ],
   "note": "Theorems ending in _false exhibit inputs on which a stronger reading of the claim fails."
  },
  {
   "property": "C58",
   "status": "proved",
   "theorems": [
    "Verif.Props.C58_cell_error",
    "Verif.Props.C58_pinball",
    "Verif.Props.C58_loss_increase_false",
    "Verif.Props.C58_patch_minimises",
    "Verif.Props.C58_smallest_shift_false"
   ],
   "note": "Theorems ending in _false exhibit inputs on which a stronger reading of the claim fails."
  },
  {
   "property": "C59",
   "status": "proved",
   "theorems": [
    "Verif.Props.C59_find_one_path"
   ],
   "note": ""
  },
  {
   "property": "C60",
   "status": "proved",
   "theorems": [
    "Verif.Props.C60_several",
    "Verif.Props.C60_several_origin",
    "Verif.Props.C60_update_wins",
    "Verif.Props.C60_update_frame",
    "Verif.Props.C60_no_invention"
   ],
   "note": ""
  },
  {
   "property": "C61",
   "status": "proved",
   "theorems": [
    "Verif.Props.C61_skip",
    "Verif.Props.C61_accumulation_false"
   ],
   "note": "Theorems ending in _false exhibit inputs on which a stronger reading of the claim fails."
  },
  {
   "property": "C62",
   "status": "proved",
   "theorems": [
    "Verif.Props.C62_keys",
    "Verif.Props.C62_callbacks_aligned",
    "Verif.Props.C62_callbacks_misaligned_false",
    "Verif.Props.C62_keys_repeat_false",
    "Verif.Props.C62_all_epochs",
    "Verif.Props.C62_validation_schedule",
    "Verif.Props.C62_validation_checkpoint",
    "Verif.Props.C62_final_checkpoint",
    "Verif.Props.C62_best_kept_false",
    "Verif.Props.C62_rerun_false",
    "Verif.Props.C62_runs",
    "Verif.Props.C62_short_epoch_false"
   ],
   "note": "Theorems ending in _false exhibit inputs on which a stronger reading of the claim fails."
  },
  {
   "property": "C64",
   "status": "proved",
   "theorems": [
    "Verif.Props.C64_ensemble",
    "Verif.Props.C64_end_to_end",
    "Verif.Props.C64_labels_false",
    "Verif.Props.C64_importance",
    "Verif.Props.C64_validity",
    "Verif.Props.C64_monotone",
    "Verif.Props.C64_extremes",
    "Verif.Props.C64_set",
    "Verif.Props.C64_grid",
    "Verif.Props.C64_ess"
   ],
   "note": "Theorems ending in _false exhibit inputs on which a stronger reading of the claim fails."
  },
  {
   "property": "C65",
   "status": "proved",
   "theorems": [
    "Verif.Props.C65_devices",
    "Verif.Props.C65_aux_false",
    "Verif.Props.C65_aux_devices_false",
    "Verif.Props.C65_samples",
    "Verif.Props.C65_same_noise_false",
    "Verif.Props.C65_distributed_false",
    "Verif.Props.C65_rng_false"
   ],
   "note": "The random numbers are an arbitrary function of sample and row within the batch. Theorems ending in _false exhibit inputs on which a stronger reading of the claim fails."
  },
  {
   "property": "C66",
   "status": "proved",
   "theorems": [
    "Verif.Props.C66_distribution",
    "Verif.Props.C66_shift",
    "Verif.Props.C66_out_of_range_false",
    "Verif.Props.C66_predict",
    "Verif.Props.C66_variance",
    "Verif.Props.C66_entropy",
    "Verif.Props.C66_masked",
    "Verif.Props.C66_masked_distribution_false",
    "Verif.Props.C66_std",
    "Verif.Props.C66_std_variances_false"
   ],
   "note": "False corners proved separately: out-of-range labels get positive probability (C66_out_of_range_false), the masked layer is not a distribution (C66_masked_distribution_false), std returns given variances unrooted (C66_std_variances_false). Theorems ending in _false exhibit inputs on which a stronger reading of the claim fails."
  },
  {
   "property": "C67",
   "status": "proved",
   "theorems": [
    "Verif.Props.C67_density",
    "Verif.Props.C67_normalised",
    "Verif.Props.C67_moments",
    "Verif.Props.C67_mode",
    "Verif.Props.C67_samples",
    "Verif.Props.C67_entropy"
   ],
   "note": ""
  },
  {
   "property": "C68",
   "status": "proved",
   "theorems": [
    "Verif.Props.C68_isotropic",
    "Verif.Props.C68_diagonal",
    "Verif.Props.C68_shape",
    "Verif.Props.C68_single_false",
    "Verif.Props.C68_layout",
    "Verif.Props.C68_penalty",
    "Verif.Props.C68_samples",
    "Verif.Props.C68_diagonal_samples"
   ],
   "note": "C68_single_false: with a single parameter a vector of log-variances is broadcast instead of refused. Theorems ending in _false exhibit inputs on which a stronger reading of the claim fails."
  },
  {
   "property": "C69",
   "status": "proved",
   "theorems": [
    "Verif.Props.C69_predict",
    "Verif.Props.C69_confidence",
    "Verif.Props.C69_regression",
    "Verif.Props.C69_regression_optimum",
    "Verif.Props.C69_mean_field"
   ],
   "note": ""
  },
  {
   "property": "C70",
   "status": "proved",
   "theorems": [
    "Verif.Props.C70_guards",
    "Verif.Props.C70_result",
    "Verif.Props.C70_precomputed",
    "Verif.Props.C70_negative",
    "Verif.Props.C70_negative_default_false",
    "Verif.Props.C70_unknown_aux_false",
    "Verif.Props.C70_no_manager_false",
    "Verif.Props.C70_calib_state_false"
   ],
   "note": "Proved with a calibration manager present and calibrator state as initialised. Failures proved separately: default return_aux of the negative log joint, unknown names, no manager, and calibrator state fed back (C70_*_false). Theorems ending in _false exhibit inputs on which a stronger reading of the claim fails."
  },
  {
   "property": "C71",
   "status": "proved",
   "theorems": [
    "Verif.Props.C71_split",
    "Verif.Props.C71_none",
    "Verif.Props.C71_model",
    "Verif.Props.C71_regression_stateless",
    "Verif.Props.C71_regression_state_false"
   ],
   "note": "Regression models with state do not work (C71_regression_state_false). Theorems ending in _false exhibit inputs on which a stronger reading of the claim fails."
  },
  {
   "property": "C72",
   "status": "proved",
   "theorems": [
    "Verif.Props.C72_mean",
    "Verif.Props.C72_covariance",
    "Verif.Props.C72_psd",
    "Verif.Props.C72_missing_class_false",
    "Verif.Props.C72_score",
    "Verif.Props.C72_max_false"
   ],
   "note": "The pseudo-inverse is external: any positive semidefinite matrix. Theorems ending in _false exhibit inputs on which a stronger reading of the claim fails."
  },
  {
   "property": "C73",
   "status": "proved",
   "theorems": [
    "Verif.Props.C73_fit",
    "Verif.Props.C73_members",
    "Verif.Props.C73_score",
    "Verif.Props.C73_jitter",
    "Verif.Props.C73_singleton",
    "Verif.Props.C73_missing_class_false",
    "Verif.Props.C73_fit_score",
    "Verif.Props.C73_fit_score_jitter",
    "Verif.Props.C73_weights_false"
   ],
   "note": "The Gaussian log-density is external; infinite log-densities (clipped by nan_to_num) are not modelled. Theorems ending in _false exhibit inputs on which a stronger reading of the claim fails."
  },
  {
   "property": "C63",
   "status": "proved",
   "theorems": [
    "Verif.Props.C63_round_trip",
    "Verif.Props.C63_samples_back",
    "Verif.Props.C63_chain",
    "Verif.Props.C63_unrestricted",
    "Verif.Props.C63_missing",
    "Verif.Props.C63_update",
    "Verif.Props.C63_get_all_false",
    "Verif.Props.C63_all_frozen_false",
    "Verif.Props.C63_extract"
   ],
   "note": "States are a class tag with attributes; checkpoint storage is the disk model of C34. Theorems ending in _false exhibit inputs on which a stronger reading of the claim fails."
  },
  {
   "property": "C75",
   "status": "proved",
   "theorems": [
    "Verif.Props.C75_precedence",
    "Verif.Props.C75_accepts",
    "Verif.Props.C75_fresh",
    "Verif.Props.C75_needs_map",
    "Verif.Props.C75_map_ignored",
    "Verif.Props.C75_dump",
    "Verif.Props.C75_swag",
    "Verif.Props.C75_swag_refuses",
    "Verif.Props.C75_mixed",
    "Verif.Props.C75_save_load",
    "Verif.Props.C75_load_empty",
    "Verif.Props.C75_ensemble_save_false",
    "Verif.Props.C75_ensemble_load",
    "Verif.Props.C75_ensemble_load_incomplete_false",
    "Verif.Props.C75_ensemble_current",
    "Verif.Props.C75_ensemble_moved_false"
   ],
   "note": "Training itself is abstract: only the choice and construction of the starting state, and saving/loading, are modelled. Theorems ending in _false exhibit inputs on which a stronger reading of the claim fails."
  },
  {
   "property": "C74",
   "status": "proved",
   "theorems": [
    "Verif.Props.C74_ggn",
    "Verif.Props.C74_batching",
    "Verif.Props.C74_classification",
    "Verif.Props.C74_regression",
    "Verif.Props.C74_std",
    "Verif.Props.C74_recover",
    "Verif.Props.C74_tune",
    "Verif.Props.C74_tune_false",
    "Verif.Props.C74_tune_devices",
    "Verif.Props.C74_tune_objective",
    "Verif.Props.C74_tune_batching",
    "Verif.Props.C74_tune_refused",
    "Verif.Props.C74_sample",
    "Verif.Props.C74_all",
    "Verif.Props.C74_sample_keys"
   ],
   "note": "Derivatives are characterised (second derivative along every line), eigh is a contract (H = z diag(lam) z^T). Theorems ending in _false exhibit inputs on which a stronger reading of the claim fails."
  },
  {
   "property": "C76",
   "status": "proved",
   "theorems": [
    "Verif.Props.C76_inverse",
    "Verif.Props.C76_density",
    "Verif.Props.C76_gaussian",
    "Verif.Props.C76_push",
    "Verif.Props.C76_loss",
    "Verif.Props.C76_recover",
    "Verif.Props.C76_sample",
    "Verif.Props.C76_train_start",
    "Verif.Props.C76_train_start_sorted",
    "Verif.Props.C76_log_stds",
    "Verif.Props.C76_train_start_false",
    "Verif.Props.C76_disk_false"
   ],
   "note": "Noise is an argument; ravel_pytree is a contract (sorted keys at every level, tuples in order). Theorems ending in _false exhibit inputs on which a stronger reading of the claim fails."
  },
  {
   "property": "C77",
   "status": "proved",
   "theorems": [
    "Verif.Props.C77_back",
    "Verif.Props.C77_disk_false",
    "Verif.Props.C77_moments",
    "Verif.Props.AdviRun.C77_all"
   ],
   "note": "Moments are with respect to an arbitrary probability measure with the required integrability. Theorems ending in _false exhibit inputs on which a stronger reading of the claim fails."
  },
  {
   "property": "C78",
   "status": "proved",
   "theorems": [
    "Verif.Props.C78_reset",
    "Verif.Props.C78_reset_devices",
    "Verif.Props.C78_reset_missing",
    "Verif.Props.C78_spectral_required",
    "Verif.Props.C78_fit",
    "Verif.Props.C78_resets",
    "Verif.Props.C78_momentum",
    "Verif.Props.C78_apply",
    "Verif.Props.C78_covariance",
    "Verif.Props.C78_posdef",
    "Verif.Props.C78_antitone",
    "Verif.Props.C78_bounds",
    "Verif.Props.C78_logits",
    "Verif.Props.C78_logits_default",
    "Verif.Props.C78_logits_refused",
    "Verif.Props.C78_features",
    "Verif.Props.C78_momentum_zero_false",
    "Verif.Props.C78_momentum_check",
    "Verif.Props.C78_call",
    "Verif.Props.C78_call_run",
    "Verif.Props.C78_momentum_posdef",
    "Verif.Props.C78_devices",
    "Verif.Props.C78_devices_false"
   ],
   "note": "The feature extractor is an arbitrary function. Cholesky and triangular solve are contracts (any lower factor, any solution); solutions are proved to exist. Theorems ending in _false exhibit inputs on which a stronger reading of the claim fails."
  },
  {
   "property": "C79",
   "status": "proved",
   "theorems": [
    "Verif.Props.C79_estimate",
    "Verif.Props.C79_monotone",
    "Verif.Props.C79_scaled",
    "Verif.Props.C79_bound",
    "Verif.Props.C79_frozen",
    "Verif.Props.C79_bound_false"
   ],
   "note": "Real arithmetic; the kernel as a matrix. Theorems ending in _false exhibit inputs on which a stronger reading of the claim fails."
  },
  {
   "property": "C80",
   "status": "proved",
   "theorems": [
    "Verif.Props.C80_scales",
    "Verif.Props.C80_scales_pos",
    "Verif.Props.C80_shrinks",
    "Verif.Props.C80_scaled",
    "Verif.Props.C80_rownorm",
    "Verif.Props.C80_top",
    "Verif.Props.C80_args",
    "Verif.Props.C80_args_ok",
    "Verif.Props.C80_memory_false",
    "Verif.Props.C80_topk_false",
    "Verif.Props.C80_topk_tokens_false"
   ],
   "note": "The Jacobians are arguments (automatic differentiation is trusted). Theorems ending in _false exhibit inputs on which a stronger reading of the claim fails."
  },
  {
   "property": "C81",
   "status": "proved",
   "theorems": [
    "Verif.Props.C81_ess_bounds",
    "Verif.Props.C81_ess_affine",
    "Verif.Props.C81_ess_unfiltered_false",
    "Verif.Props.C81_ess_threshold_false",
    "Verif.Props.C81_ksd_nonneg",
    "Verif.Props.C81_ksd_mean",
    "Verif.Props.C81_ksd_perm",
    "Verif.Props.C81_stein",
    "Verif.Props.C81_symm",
    "Verif.Props.C81_params_false",
    "Verif.Props.C81_default"
   ],
   "note": "Real arithmetic; the fast Fourier transform is replaced by the circular autocorrelation it computes. Theorems ending in _false exhibit inputs on which a stronger reading of the claim fails."
  },
  {
   "property": "C82",
   "status": "proved",
   "theorems": [
    "Verif.Props.C82_epoch",
    "Verif.Props.C82_epoch_drop",
    "Verif.Props.C82_batch_zero",
    "Verif.Props.C82_size",
    "Verif.Props.C82_size_false",
    "Verif.Props.C82_chunks",
    "Verif.Props.C82_choices",
    "Verif.Props.C82_choices_total",
    "Verif.Props.C82_choices_none",
    "Verif.Props.C82_choices_false",
    "Verif.Props.C82_collate",
    "Verif.Props.C82_collate_any",
    "Verif.Props.C82_collate_false",
    "Verif.Props.C82_mask_token",
    "Verif.Props.C82_mask_rate",
    "Verif.Props.C82_mask_outcomes",
    "Verif.Props.C82_mask_recover",
    "Verif.Props.C82_mask_refused",
    "Verif.Props.C82_causal",
    "Verif.Props.C82_causal_nopad",
    "Verif.Props.C82_causal_false",
    "Verif.Props.C82_labels",
    "Verif.Props.MaskLaw.C82_mask_law",
    "Verif.Props.MaskLaw.C82_mask_label_law",
    "Verif.Props.MaskLaw.C82_mask_sequence_law",
    "Verif.Props.MaskLaw.C82_mask_none_law",
    "Verif.Props.MaskLaw.C82_mask_count_law"
   ],
   "note": "The tokenizer and its padding are arbitrary functions; random draws are arbitrary bits. Theorems ending in _false exhibit inputs on which a stronger reading of the claim fails."
  },
  {
   "property": "C83",
   "status": "proved",
   "theorems": [
    "Verif.Props.C83_stepped",
    "Verif.Props.C83_stepped_refused",
    "Verif.Props.C83_stepped_none",
    "Verif.Props.C83_warmup",
    "Verif.Props.C83_warmup_false",
    "Verif.Props.C83_rounding_false",
    "Verif.Props.C83_decay",
    "Verif.Props.C83_no_decay",
    "Verif.Props.C83_decay_false",
    "Verif.Props.C83_clip_norm",
    "Verif.Props.C83_clip_tight",
    "Verif.Props.C83_clip_value"
   ],
   "note": "optax.linear_schedule and join_schedules are contracts. Real or rational arithmetic. Theorems ending in _false exhibit inputs on which a stronger reading of the claim fails."
  },
  {
   "property": "C84",
   "status": "proved",
   "theorems": [
    "Verif.Props.C84_trainer",
    "Verif.Props.C84_tpu_false",
    "Verif.Props.C84_hash",
    "Verif.Props.C84_private",
    "Verif.Props.C84_eq_values",
    "Verif.Props.C84_order_false",
    "Verif.Props.C84_not_random",
    "Verif.Props.C84_deterministic",
    "Verif.Props.C84_random_false"
   ],
   "note": "Comparison and hash of attribute values are arguments. Theorems ending in _false exhibit inputs on which a stronger reading of the claim fails."
  },
  {
   "property": "C85",
   "status": "proved",
   "theorems": [
    "Verif.Props.OutputCalib.C85_run",
    "Verif.Props.OutputCalib.C85_keys",
    "Verif.Props.OutputCalib.C85_checkpoint",
    "Verif.Props.OutputCalib.C85_periodic",
    "Verif.Props.OutputCalib.C85_no_batch",
    "Verif.Props.OutputCalib.C85_no_directory",
    "Verif.Props.OutputCalib.C85_improved",
    "Verif.Props.OutputCalib.C85_early_stopping",
    "Verif.Props.OutputCalib.C85_save_every_false",
    "Verif.Props.OutputCalib.C85_monitor_false",
    "Verif.Props.OutputCalib.C85_best_false",
    "Verif.Props.OutputCalib.C85_truncated_false",
    "Verif.Props.OutputCalib.C85_full_batch",
    "Verif.Props.OutputCalib.C85_loss",
    "Verif.Props.OutputCalib.C85_state_false",
    "Verif.Props.OutputCalib.C85_arguments_false",
    "Verif.Props.OutputCalib.C85_predictive",
    "Verif.Props.OutputCalib.C85_checks",
    "Verif.Props.OutputCalib.C85_refused",
    "Verif.Props.OutputCalib.C85_checks_false",
    "Verif.Props.OutputCalib.C85_shard",
    "Verif.Props.OutputCalib.C85_shard_ensemble_refused",
    "Verif.Props.OutputCalib.C85_shard_ensemble",
    "Verif.Props.OutputCalib.C85_devices",
    "Verif.Props.OutputCalib.C85_val_outputs",
    "Verif.Props.OutputCalib.C85_val_metrics_false"
   ],
   "note": "Optimizer, loss gradient and calibrator are arguments. flax checkpoints and early stopping as in C31/C62. The device theorem takes the loss as an average over rows that uses no random key. Theorems ending in _false exhibit inputs on which a stronger reading of the claim fails."
  },
  {
   "property": "C86",
   "status": "proved",
   "theorems": [
    "Verif.Props.Checkpoint.C86_round_trip",
    "Verif.Props.Checkpoint.C86_round_trip_optimizer",
    "Verif.Props.Checkpoint.C86_resume",
    "Verif.Props.Checkpoint.C86_resume_memoryless",
    "Verif.Props.Checkpoint.C86_resume_false",
    "Verif.Props.Checkpoint.C86_long_name_false",
    "Verif.Props.Checkpoint.C86_output_calib",
    "Verif.Props.Checkpoint.C86_output_calib_none_false",
    "Verif.Props.Checkpoint.C86_calib",
    "Verif.Props.Checkpoint.C86_foreign",
    "Verif.Props.Checkpoint.C86_foreign_false",
    "Verif.Props.Checkpoint.C86_scale_false"
   ],
   "note": "flax serialisation (tuples become dictionaries with keys \"0\",\"1\",..., order kept on disk) and key sorting of jax are modelled contracts. Class-specific fields of posterior states are left out; accumulation, clipping and overflow are in C32/C61/C83. Theorems ending in _false exhibit inputs on which a stronger reading of the claim fails."
  },
  {
   "property": "C87",
   "status": "proved",
   "theorems": [
    "Verif.Props.CalibModel.C87_loss",
    "Verif.Props.CalibModel.C87_validation",
    "Verif.Props.CalibModel.C87_state_false",
    "Verif.Props.CalibModel.C87_precomputed_false",
    "Verif.Props.CalibModel.C87_run",
    "Verif.Props.CalibModel.C87_run_state_false",
    "Verif.Props.CalibModel.C87_calibrate",
    "Verif.Props.CalibModel.C87_refused",
    "Verif.Props.CalibModel.C87_check_classifier",
    "Verif.Props.CalibModel.C87_check_regressor",
    "Verif.Props.CalibModel.C87_check_errors",
    "Verif.Props.CalibModel.C87_check_false",
    "Verif.Props.CalibModel.C87_clip_false",
    "Verif.Props.CalibModel.C87_uncalibrated"
   ],
   "note": "Differentiation and optimizer are arguments. Checkpoints, metrics, callbacks and early stopping of the trainer are those of C31/C62; several devices C85. Theorems ending in _false exhibit inputs on which a stronger reading of the claim fails."
  },
  {
   "property": "C88",
   "status": "proved",
   "theorems": [
    "Verif.Props.MultiDevice.C88_refused",
    "Verif.Props.MultiDevice.C88_replicas",
    "Verif.Props.MultiDevice.C88_single",
    "Verif.Props.MultiDevice.C88_scaled",
    "Verif.Props.MultiDevice.C88_scaled_false",
    "Verif.Props.MultiDevice.C88_checkpoint",
    "Verif.Props.MultiDevice.C88_stateless",
    "Verif.Props.MultiDevice.C88_mutable_false",
    "Verif.Props.MultiDevice.C88_keys",
    "Verif.Props.MultiDevice.C88_train_metric",
    "Verif.Props.MultiDevice.C88_val_metric",
    "Verif.Props.MultiDevice.C88_val_loss",
    "Verif.Props.MultiDevice.C88_val_metric_false"
   ],
   "note": "pmap and lax.pmean are modelled as running every device on its rows and averaging. Gradients, optimizer and floating-point rounding are arguments of the model or left out. Theorems ending in _false exhibit inputs on which a stronger reading of the claim fails."
  },
  {
   "property": "C89",
   "status": "proved",
   "theorems": [
    "Verif.Props.ProbModel.C89_outputs",
    "Verif.Props.ProbModel.C89_outputs_devices",
    "Verif.Props.ProbModel.C89_size_false",
    "Verif.Props.ProbModel.C89_sample_false",
    "Verif.Props.ProbModel.C89_objective",
    "Verif.Props.ProbModel.C89_objective_full",
    "Verif.Props.ProbModel.C89_objective_range",
    "Verif.Props.ProbModel.C89_single_epoch",
    "Verif.Props.ProbModel.C89_minibatch_false",
    "Verif.Props.ProbModel.C89_size_objective_false",
    "Verif.Props.ProbModel.C89_stored",
    "Verif.Props.ProbModel.C89_calibrate",
    "Verif.Props.ProbModel.C89_not_calibrated",
    "Verif.Props.ProbModel.C89_train",
    "Verif.Props.ProbModel.C89_dim",
    "Verif.Props.ProbModel.C89_dim_regression",
    "Verif.Props.ProbModel.C89_missing_class_false",
    "Verif.Props.ProbModel.C89_restore",
    "Verif.Props.ProbModel.C89_restore_dump_false"
   ],
   "note": "The calibrator run itself is C85, posterior fitting is an argument. The final dump to disk and auxiliary outputs of the objective are left out; exceptions while updating the repository are in C33. Theorems ending in _false exhibit inputs on which a stronger reading of the claim fails."
  },
  {
   "property": "C90",
   "status": "proved",
   "theorems": [
    "Verif.Props.Networks.C90_mlp",
    "Verif.Props.Networks.C90_mlp_refused",
    "Verif.Props.Networks.C90_dropout",
    "Verif.Props.Networks.C90_dropout_false",
    "Verif.Props.Networks.C90_residual",
    "Verif.Props.Networks.C90_residual_activation_false",
    "Verif.Props.Networks.C90_residual_widths_false",
    "Verif.Props.Networks.C90_blocks",
    "Verif.Props.Networks.C90_windows",
    "Verif.Props.Networks.C90_resnet",
    "Verif.Props.Networks.C90_wide",
    "Verif.Props.Networks.C90_wide_false",
    "Verif.Props.Networks.C90_lenet_cnn",
    "Verif.Props.Networks.C90_activation_false",
    "Verif.Props.Networks.C90_constant",
    "Verif.Props.Networks.C90_input_shape"
   ],
   "note": "Dense layers are modelled with their weights; convolutions, pooling and batch norm by the shapes they give (flax documentation). Activations of convolutional networks are recorded as the list of functions used. Theorems ending in _false exhibit inputs on which a stronger reading of the claim fails."
  },
  {
   "property": "C91",
   "status": "proved",
   "theorems": [
    "Verif.Props.MultivalidEntry.C91_accepts",
    "Verif.Props.MultivalidEntry.C91_mvp_multiplicative",
    "Verif.Props.MultivalidEntry.C91_apply",
    "Verif.Props.MultivalidEntry.C91_test_values",
    "Verif.Props.MultivalidEntry.C91_no_patches_false",
    "Verif.Props.MultivalidEntry.C91_init_binary",
    "Verif.Props.MultivalidEntry.C91_init_top_label",
    "Verif.Props.MultivalidEntry.C91_one_hot",
    "Verif.Props.MultivalidEntry.C91_out_of_range_false",
    "Verif.Props.MultivalidEntry.C91_single_class",
    "Verif.Props.MultivalidEntry.C91_mvp_error_false",
    "Verif.Props.MultivalidEntry.C91_error_defaults",
    "Verif.Props.MultivalidEntry.C91_mvp_sets",
    "Verif.Props.MultivalidEntry.C91_mvp_refused",
    "Verif.Props.MultivalidEntry.C91_mvp_sets_mono",
    "Verif.Props.MultivalidEntry.C91_normalized_false",
    "Verif.Props.MultivalidEntry.C91_exceptions",
    "Verif.Props.MultivalidEntry.C91_apply_exceptions",
    "Verif.Props.MultivalidEntry.C91_mvp_error_before",
    "Verif.Props.MultivalidEntry.C91_mvp_error_after",
    "Verif.Props.MultivalidEntry.C91_parameters",
    "Verif.Props.MultivalidEntry.C91_initial_values",
    "Verif.Props.MultivalidEntry.C91_options",
    "Verif.Props.MultivalidEntry.C91_test_data",
    "Verif.Props.MultivalidEntry.C91_extra_rows_false"
   ],
   "note": "Random numbers and the permutation are arguments. Multiplicative patches in batch MVP are refused even when the loop would compute no patch. Theorems ending in _false exhibit inputs on which a stronger reading of the claim fails."
  },
  {
   "property": "C92",
   "status": "proved",
   "theorems": [
    "Verif.Props.LoaderViews.C92_chop_targets",
    "Verif.Props.LoaderViews.C92_split_projects",
    "Verif.Props.LoaderViews.C92_split_rows",
    "Verif.Props.LoaderViews.C92_sample_projects",
    "Verif.Props.LoaderViews.C92_sample_matched",
    "Verif.Props.LoaderViews.C92_to_array",
    "Verif.Props.LoaderViews.C92_size",
    "Verif.Props.LoaderViews.C92_transform",
    "Verif.Props.LoaderViews.C92_from_data_loader_inputs",
    "Verif.Props.LoaderViews.C92_from_data_loader_targets_false",
    "Verif.Props.LoaderViews.C92_passes",
    "Verif.Props.LoaderViews.C92_one_shot_false"
   ],
   "note": "Each algorithm of InputsLoader and TargetsLoader is modelled once (the code is the same with the names exchanged). Inputs that are dictionaries of arrays and passes abandoned in the middle are not modelled. The targets statements assume that every batch holds as many inputs as targets. Theorems ending in _false exhibit inputs on which a stronger reading of the claim fails."
  },
  {
   "property": "C93",
   "status": "proved",
   "theorems": [
    "Verif.Props.PosteriorSample.C93_map",
    "Verif.Props.PosteriorSample.C93_slot",
    "Verif.Props.PosteriorSample.C93_put",
    "Verif.Props.PosteriorSample.C93_unbiased",
    "Verif.Props.PosteriorSample.C93_larger_ensemble_ignored",
    "Verif.Props.PosteriorSample.C93_smaller_ensemble_false",
    "Verif.Props.PosteriorSample.C93_pull"
   ],
   "note": "The draw of the slot (jax.random.choice) is an argument; unbiasedness is stated as an average over all equally likely draws. Theorems ending in _false exhibit inputs on which a stronger reading of the claim fails."
  },
  {
   "property": "C94",
   "status": "proved",
   "theorems": [
    "Verif.Props.TrainerMetrics.C94_metric_lookup",
    "Verif.Props.TrainerMetrics.C94_metrics_reported",
    "Verif.Props.TrainerMetrics.C94_same_name_false",
    "Verif.Props.TrainerMetrics.C94_loss_reported",
    "Verif.Props.TrainerMetrics.C94_loss_named_false",
    "Verif.Props.TrainerMetrics.C94_epoch_mean",
    "Verif.Props.TrainerMetrics.C94_epoch_rows",
    "Verif.Props.TrainerMetrics.C94_epoch_ragged_false",
    "Verif.Props.TrainerMetrics.C94_flow_metric",
    "Verif.Props.TrainerMetrics.C94_flow_devices",
    "Verif.Props.TrainerMetrics.C94_flow_devices_false",
    "Verif.Props.TrainerMetrics.C94_flow_accuracy_false",
    "Verif.Props.TrainerMetrics.C94_pieces",
    "Verif.Props.TrainerMetrics.C94_advi_devices_false"
   ],
   "note": "Uncertainties passed to metrics are part of the predictions here. The exception of multi-device ADVI rests on jax's contract for the function returned by ravel_pytree (split along the first axis, then reshape). Theorems ending in _false exhibit inputs on which a stronger reading of the claim fails."
  },
  {
   "property": "C95",
   "status": "proved",
   "theorems": [
    "Verif.Props.C95_total_error",
    "Verif.Props.C95_some_round_calibrated",
    "Verif.Props.C95_round_bound",
    "Verif.Props.C95_validation_rounds",
    "Verif.Props.C95_validation_rounds_1d",
    "Verif.Props.C95_untouched_progress_false"
   ],
   "note": "Exact arithmetic. The rate is for additive patches of the one-dimensional and the top-label multicalibrator; the statement about the validation loss is for every method whose recorded losses are numbers. Theorems ending in _false exhibit inputs on which a stronger reading of the claim fails."
  },
  {
   "property": "C96",
   "status": "proved",
   "theorems": [
    "Verif.Props.C96_private",
    "Verif.Props.C96_explicit",
    "Verif.Props.C96_sampler_ignores",
    "Verif.Props.C96_leak_false",
    "Verif.Props.C96_default_false",
    "Verif.Props.C96_start",
    "Verif.Props.C96_two_defaults_false",
    "Verif.Props.C96_fresh",
    "Verif.Props.C96_resets",
    "Verif.Props.C96_ascent",
    "Verif.Props.C96_rng_private",
    "Verif.Props.C96_rng_default_false"
   ],
   "note": "Theorems ending in _false exhibit inputs on which a stronger reading of the claim fails."
  },
  {
   "property": "C97",
   "status": "proved",
   "theorems": [
    "Verif.Props.C97_all_epochs",
    "Verif.Props.C97_patience",
    "Verif.Props.C97_maximised_false",
    "Verif.Props.C97_sampler_stops_false",
    "Verif.Props.C97_samples",
    "Verif.Props.C97_samples_false",
    "Verif.Props.C97_clipped",
    "Verif.Props.C97_accumulated",
    "Verif.Props.C97_unclipped_false",
    "Verif.Props.C97_callbacks",
    "Verif.Props.C97_status",
    "Verif.Props.C97_kept",
    "Verif.Props.C97_dump",
    "Verif.Props.C97_dump_false",
    "Verif.Props.C97_reload"
   ],
   "note": "Theorems ending in _false exhibit inputs on which a stronger reading of the claim fails."
  },
  {
   "property": "C98",
   "status": "proved",
   "theorems": [
    "Verif.Props.C98_decomposition",
    "Verif.Props.C98_own_noise_false",
    "Verif.Props.C98_aleatoric",
    "Verif.Props.C98_temperature",
    "Verif.Props.C98_epistemic_le",
    "Verif.Props.C98_agree",
    "Verif.Props.C98_negative_false"
   ],
   "note": "Theorems ending in _false exhibit inputs on which a stronger reading of the claim fails."
  },
  {
   "property": "C99",
   "status": "proved",
   "theorems": [
    "Verif.Props.Detector.C99_fit_predict",
    "Verif.Props.Detector.C99_fit_accepts",
    "Verif.Props.Detector.C99_before_fit",
    "Verif.Props.Detector.C99_labels",
    "Verif.Props.Detector.C99_save_load",
    "Verif.Props.Detector.C99_rowwise",
    "Verif.Props.Detector.C99_contexts",
    "Verif.Props.Detector.C99_contexts_false",
    "Verif.Props.Detector.C99_balance_twice",
    "Verif.Props.Detector.C99_failed_fit_false",
    "Verif.Props.Detector.C99_failed_grouping_false",
    "Verif.Props.Detector.C99_no_quantiles",
    "Verif.Props.Detector.C99_fit_status",
    "Verif.Props.Detector.C99_grouping"
   ],
   "note": "Language model, reduction, clustering models and standard deviation are arbitrary functions; exact arithmetic; as many targets as texts. Theorems ending in _false exhibit inputs on which a stronger reading of the claim fails."
  },
  {
   "property": "C100",
   "status": "proved",
   "theorems": [
    "Verif.Props.C100_widened",
    "Verif.Props.C100_on_grid",
    "Verif.Props.C100_default_reaches",
    "Verif.Props.C100_equal_unique",
    "Verif.Props.C100_gap_false",
    "Verif.Props.C100_gap_untouched"
   ],
   "note": "The uncovered gaps are proved for every number of buckets (C100_gap_false, C100_gap_untouched). Theorems ending in _false exhibit inputs on which a stronger reading of the claim fails."
  },
  {
   "property": "C101",
   "status": "proved",
   "theorems": [
    "Verif.Props.SamplerRun.C101_kept",
    "Verif.Props.SamplerRun.C101_slots",
    "Verif.Props.SamplerRun.C101_sample",
    "Verif.Props.SamplerRun.C101_sghmc",
    "Verif.Props.SamplerRun.C101_load",
    "Verif.Props.SamplerRun.C101_restart",
    "Verif.Props.SamplerRun.C101_early_stop_false",
    "Verif.Props.SamplerRun.C101_save_state",
    "Verif.Props.SamplerRun.C101_save_nothing_false",
    "Verif.Props.SamplerRun.C101_too_short"
   ],
   "note": "Theorems ending in _false exhibit inputs on which a stronger reading of the claim fails."
  },
  {
   "property": "C102",
   "status": "proved",
   "theorems": [
    "Verif.Props.JackknifeCoverage.C102_jackknife_plus",
    "Verif.Props.JackknifeCoverage.C102_minmax",
    "Verif.Props.JackknifeCoverage.C102_cv_plus",
    "Verif.Props.JackknifeCoverage.C102_jackknife_plus_probability",
    "Verif.Props.JackknifeCoverage.C102_minmax_probability",
    "Verif.Props.JackknifeCoverage.C102_cv_plus_probability",
    "Verif.Props.JackknifeCoverage.C102_minmax_tight",
    "Verif.Props.JackknifeCoverage.C102_missed_probability",
    "Verif.Props.JackknifeCoverage.C102_minmax_documented_false",
    "Verif.Props.JackknifeCoverage.C102_jackknife_plus_documented_false",
    "Verif.Props.JackknifeCoverage.C102_rate"
   ],
   "note": "Experiment defined in Props/JackknifeCoverage.lean independently of the model: symmetric learner on multisets, leave-one-out and leave-fold-out models, the modelled functions called on their outputs. Exact real arithmetic. The CV+ bound assumes folds of equal size and m - 1 further exchangeable points, as i.i.d. data allow. Theorems ending in _false exhibit inputs on which a stronger reading of the claim fails."
  },
  {
   "property": "C103",
   "status": "proved",
   "theorems": [
    "Verif.Props.AdviRun.C103_ravel",
    "Verif.Props.AdviRun.C103_sample",
    "Verif.Props.AdviRun.C103_load",
    "Verif.Props.AdviRun.C103_restart",
    "Verif.Props.AdviRun.C103_load_selected",
    "Verif.Props.AdviRun.C103_restart_selected",
    "Verif.Props.AdviRun.C103_unfreeze_false",
    "Verif.Props.AdviRun.C103_thaw_false",
    "Verif.Props.AdviRun.C103_refreeze"
   ],
   "note": "Theorems ending in _false exhibit inputs on which a stronger reading of the claim fails."
  },
  {
   "property": "C104",
   "status": "proved",
   "theorems": [
    "Verif.Props.AdaptivePrediction.C104_score",
    "Verif.Props.AdaptivePrediction.C104_score_order",
    "Verif.Props.AdaptivePrediction.C104_split",
    "Verif.Props.AdaptivePrediction.C104_cv_plus",
    "Verif.Props.AdaptivePrediction.C104_scores",
    "Verif.Props.AdaptivePrediction.C104_less_likely_first",
    "Verif.Props.AdaptivePrediction.C104_least_likely_always",
    "Verif.Props.AdaptivePrediction.C104_most_likely_false"
   ],
   "note": "The English expectation that sets consist of the most likely labels is refuted by C104_most_likely_false. Theorems ending in _false exhibit inputs on which a stronger reading of the claim fails."
  },
  {
   "property": "C105",
   "status": "proved",
   "theorems": [
    "Verif.Props.ClassCoverage.C105_split_covers",
    "Verif.Props.ClassCoverage.C105_split_covers_at_most",
    "Verif.Props.ClassCoverage.C105_cv_plus_trivial",
    "Verif.Props.ClassCoverage.C105_cv_plus_false"
   ],
   "note": "The guarantee of CV+ is refuted by C105_cv_plus_false. Theorems ending in _false exhibit inputs on which a stronger reading of the claim fails."
  },
  {
   "property": "C106",
   "status": "proved",
   "theorems": [
    "Verif.Props.RandomFeatures.C106_mean",
    "Verif.Props.RandomFeatures.C106_spread",
    "Verif.Props.RandomFeatures.C106_scale",
    "Verif.Props.RandomFeatures.C106_kernel",
    "Verif.Props.RandomFeatures.C106_exponential",
    "Verif.Props.RandomFeatures.C106_gram"
   ],
   "note": "Real arithmetic; the initialisers' samples are taken to be exactly the stated distributions and independent."
  },
  {
   "property": "C107",
   "status": "proved",
   "theorems": [
    "Verif.Props.Editor.C107_none",
    "Verif.Props.Editor.C107_once",
    "Verif.Props.Editor.C107_class",
    "Verif.Props.Editor.C107_probit_false",
    "Verif.Props.Editor.C107_sngp_probit_false",
    "Verif.Props.Editor.C107_sngp_twice_false"
   ],
   "note": "The probit editor's scaling is an arbitrary function here (its value is C80); dropout keys are not modelled. Theorems ending in _false exhibit inputs on which a stronger reading of the claim fails."
  },
  {
   "property": "C108",
   "status": "proved",
   "theorems": [
    "Verif.Props.Langevin.C108_law",
    "Verif.Props.Langevin.C108_limit",
    "Verif.Props.Langevin.C108_converges",
    "Verif.Props.Langevin.C108_small_steps",
    "Verif.Props.Langevin.C108_posterior_false",
    "Verif.Props.Langevin.C108_unstable"
   ],
   "note": "The gradient is that of the full log density (one batch holding all data); preconditioners other than the identity and varying step sizes are not covered here (C38, C39 hold of them). Theorems ending in _false exhibit inputs on which a stronger reading of the claim fails."
  },
  {
   "property": "C109",
   "status": "proved",
   "theorems": [
    "Verif.Props.MonteCarlo.C109_mean",
    "Verif.Props.MonteCarlo.C109_aleatoric",
    "Verif.Props.MonteCarlo.C109_epistemic",
    "Verif.Props.MonteCarlo.C109_variance",
    "Verif.Props.MonteCarlo.C109_prob",
    "Verif.Props.MonteCarlo.C109_log_prob",
    "Verif.Props.MonteCarlo.C109_log_prob_unbiased_false",
    "Verif.Props.MonteCarlo.C109_log_prob_mono",
    "Verif.Props.MonteCarlo.C109_class_probs",
    "Verif.Props.MonteCarlo.C109_entropies",
    "Verif.Props.MonteCarlo.C109_one_sample",
    "Verif.Props.MonteCarlo.C109_entropy_mono"
   ],
   "note": "Posterior samples with different keys are assumed independent with the posterior's law and the keys of one split different; exact arithmetic, moments as required. Theorems ending in _false exhibit inputs on which a stronger reading of the claim fails."
  },
  {
   "property": "C110",
   "status": "proved",
   "theorems": [
    "Verif.Props.GaussLaw.C110_quadratic",
    "Verif.Props.GaussLaw.C110_posterior",
    "Verif.Props.GaussLaw.C110_laplace_std",
    "Verif.Props.GaussLaw.C110_narrow",
    "Verif.Props.GaussLaw.C110_laplace_law",
    "Verif.Props.GaussLaw.C110_advi_law",
    "Verif.Props.GaussLaw.C110_swag_functional",
    "Verif.Props.GaussLaw.C110_swag_law",
    "Verif.Props.GaussLaw.C110_advi_expected",
    "Verif.Props.GaussLaw.C110_advi_optimum",
    "Verif.Props.GaussLaw.C110_laplace_narrow",
    "Verif.Props.GaussLaw.C110_advi_regression",
    "Verif.Props.GaussLaw.C110_exact_false"
   ],
   "note": "Exact arithmetic; the log-joint is that of all the data in one batch; the noise of different entries is independent. The diagonal entries of the Hessian come from an exact eigendecomposition. Theorems ending in _false exhibit inputs on which a stronger reading of the claim fails."
  },
  {
   "property": "C111",
   "status": "proved",
   "theorems": [
    "Verif.Props.LangevinSchedule.C111_law",
    "Verif.Props.LangevinSchedule.C111_limit",
    "Verif.Props.LangevinSchedule.C111_converges",
    "Verif.Props.LangevinSchedule.C111_polynomial",
    "Verif.Props.LangevinSchedule.C111_finite_false"
   ],
   "note": "One coordinate at a time; the gradient is that of the exact log density (no minibatch noise). Theorems ending in _false exhibit inputs on which a stronger reading of the claim fails."
  },
  {
   "property": "C112",
   "status": "proved",
   "theorems": [
    "Verif.Props.ProperScores.C112_cross_entropy",
    "Verif.Props.ProperScores.C112_brier",
    "Verif.Props.ProperScores.C112_brier_binary",
    "Verif.Props.ProperScores.C112_focal_overconfident",
    "Verif.Props.ProperScores.C112_focal_false",
    "Verif.Props.ProperScores.C112_mse",
    "Verif.Props.ProperScores.C112_mae",
    "Verif.Props.ProperScores.C112_scaled_mse"
   ],
   "note": "One input at a time, in exact arithmetic; the loss of a data set is the mean over its rows (C54, C44). Theorems ending in _false exhibit inputs on which a stronger reading of the claim fails."
  },
  {
   "property": "C113",
   "status": "proved",
   "theorems": [
    "Verif.Props.MetricLaw.C113_accuracy",
    "Verif.Props.MetricLaw.C113_picp",
    "Verif.Props.MetricLaw.C113_brier",
    "Verif.Props.MetricLaw.C113_rmse",
    "Verif.Props.MetricLaw.C113_ece",
    "Verif.Props.MetricLaw.C113_ece_calibrated",
    "Verif.Props.MetricLaw.C113_ece_zero_false"
   ],
   "note": "The bins depend on n (the first edge is 1/n), so the calibration error of the population is taken over the bins of that n. Theorems ending in _false exhibit inputs on which a stronger reading of the claim fails."
  },
  {
   "property": "C114",
   "status": "proved",
   "theorems": [
    "Verif.Props.CredibleCoverage.C114_quantile",
    "Verif.Props.CredibleCoverage.C114_quantile_upper",
    "Verif.Props.CredibleCoverage.C114_two_tailed",
    "Verif.Props.CredibleCoverage.C114_two_tailed_upper",
    "Verif.Props.CredibleCoverage.C114_nominal",
    "Verif.Props.CredibleCoverage.C114_nominal_false",
    "Verif.Props.CredibleCoverage.C114_draws"
   ],
   "note": "Exchangeable samples are assumed in C114_quantile to C114_nominal_false; C114_draws derives this for independent samples. Existence of a target's tie with a sample only matters for the upper bounds. Theorems ending in _false exhibit inputs on which a stronger reading of the claim fails."
  },
  {
   "property": "C115",
   "status": "proved",
   "theorems": [
    "Verif.Props.SteinLaw.C115_identity",
    "Verif.Props.SteinLaw.C115_mean",
    "Verif.Props.SteinLaw.C115_exact",
    "Verif.Props.SteinLaw.C115_tail",
    "Verif.Props.SteinLaw.C115_zero_false",
    "Verif.Props.SteinLaw.C115_gap",
    "Verif.Props.SteinLaw.C115_gaussian"
   ],
   "note": "Stein's identity is proved by integration by parts along each coordinate with Mathlib's Bochner integral; real arithmetic. Whether gap vanishes only for the target is not claimed. Theorems ending in _false exhibit inputs on which a stronger reading of the claim fails."
  },
  {
   "property": "C116",
   "status": "proved",
   "theorems": [
    "Verif.Props.SNGPLaw.C116_gp",
    "Verif.Props.SNGPLaw.C116_best",
    "Verif.Props.SNGPLaw.C116_bayes"
   ],
   "note": "Real arithmetic; the Cholesky factor and the triangular solve enter by their contracts (IsChol, Solves) as in C78. The distribution is that of the linear layer's weights with features held fixed."
  },
  {
   "property": "C117",
   "status": "proved",
   "theorems": [
    "Verif.Props.SwagLaw.C117_weights",
    "Verif.Props.SwagLaw.C117_spread",
    "Verif.Props.SwagLaw.C117_epochs",
    "Verif.Props.SwagLaw.C117_epoch_weight",
    "Verif.Props.SwagLaw.C117_average_false"
   ],
   "note": "Theorems ending in _false exhibit inputs on which a stronger reading of the claim fails."
  },
  {
   "property": "C118",
   "status": "proved",
   "theorems": [
    "Verif.Props.SwagRun.C118_no_step",
    "Verif.Props.SwagRun.C118_checkpoint",
    "Verif.Props.SwagRun.C118_cpu",
    "Verif.Props.SwagRun.C118_cpu_frozen",
    "Verif.Props.SwagRun.C118_inputs",
    "Verif.Props.SwagRun.C118_gpu_false",
    "Verif.Props.SwagRun.C118_gpu_single_false"
   ],
   "note": "Theorems ending in _false exhibit inputs on which a stronger reading of the claim fails."
  },
  {
   "property": "C119",
   "status": "proved",
   "theorems": [
    "Verif.Props.Transformers.C119_init",
    "Verif.Props.Transformers.C119_load",
    "Verif.Props.Transformers.C119_load_base",
    "Verif.Props.Transformers.C119_reload_false",
    "Verif.Props.Transformers.C119_class",
    "Verif.Props.Transformers.C119_supported",
    "Verif.Props.Transformers.C119_call",
    "Verif.Props.Transformers.C119_call_false",
    "Verif.Props.Transformers.C119_inputs",
    "Verif.Props.Transformers.C119_positions"
   ],
   "note": "The transformers library (`from_pretrained` and `save_pretrained` of its base class, `create_position_ids_from_input_ids`) by its contract; the networks themselves are not modelled. Theorems ending in _false exhibit inputs on which a stronger reading of the claim fails."
  },
  {
   "property": "C120",
   "status": "proved",
   "theorems": [
    "Verif.Props.TempLaw.C120_stationary",
    "Verif.Props.TempLaw.C120_direction",
    "Verif.Props.TempLaw.C120_step",
    "Verif.Props.TempLaw.C120_exists",
    "Verif.Props.TempLaw.C120_exists_false",
    "Verif.Props.TempLaw.C120_scale",
    "Verif.Props.TempLaw.C120_truth"
   ],
   "note": "Labels in range; exact arithmetic; the loss of C54 on the scaled logits of C69, its derivative computed from the formula. Theorems ending in _false exhibit inputs on which a stronger reading of the claim fails."
  },
  {
   "property": "C121",
   "status": "proved",
   "theorems": [
    "Verif.Props.BatchLaw.C121_gradient",
    "Verif.Props.BatchLaw.C121_epoch",
    "Verif.Props.BatchLaw.C121_law",
    "Verif.Props.BatchLaw.C121_cycle",
    "Verif.Props.BatchLaw.C121_variance",
    "Verif.Props.BatchLaw.C121_thinning_false",
    "Verif.Props.BatchLaw.C121_random",
    "Verif.Props.BatchLaw.C121_random_false"
   ],
   "note": "The gradient is the derivative of the batched log-joint of C51. Independent batches are an assumption of the last part: a loader that shuffles draws without replacement within an epoch; every such order is covered by the parts that hold for given batches. Theorems ending in _false exhibit inputs on which a stronger reading of the claim fails."
  },
  {
   "property": "C122",
   "status": "proved",
   "theorems": [
    "Verif.Props.C122_mse",
    "Verif.Props.C122_brier",
    "Verif.Props.C122_no_worse",
    "Verif.Props.C122_brier_no_worse",
    "Verif.Props.C122_mae",
    "Verif.Props.C122_rmse",
    "Verif.Props.C122_nll",
    "Verif.Props.C122_rmae_false",
    "Verif.Props.C122_accuracy_false",
    "Verif.Props.C122_ece_false",
    "Verif.Props.C122_best_false"
   ],
   "note": "Exact arithmetic; the sampled models are the ones drawn with the keys of one call. What does not follow from averaging is shown by concrete pairs of models. Theorems ending in _false exhibit inputs on which a stronger reading of the claim fails."
  },
  {
   "property": "C123",
   "status": "proved",
   "theorems": [
    "Verif.Props.C123_affine",
    "Verif.Props.C123_orthogonal",
    "Verif.Props.C123_affine_false",
    "Verif.Props.C123_blind",
    "Verif.Props.C123_average",
    "Verif.Props.C123_outlier",
    "Verif.Props.C123_training",
    "Verif.Props.C123_ddu"
   ],
   "note": "Exact arithmetic: jnp.linalg.pinv is any function meeting the Penrose conditions on symmetric matrices (shown to exist), without its cutoff of small singular values; multivariate_normal.logpdf is the Gaussian log-density, NaN when the covariance is not positive definite. Theorems ending in _false exhibit inputs on which a stronger reading of the claim fails."
  },
  {
   "property": "C124",
   "status": "proved",
   "theorems": [
    "Verif.Props.PrecisionLaw.C124_positive",
    "Verif.Props.PrecisionLaw.C124_negative",
    "Verif.Props.PrecisionLaw.C124_positive_coverage",
    "Verif.Props.PrecisionLaw.C124_negative_coverage",
    "Verif.Props.PrecisionLaw.C124_margin",
    "Verif.Props.PrecisionLaw.C124_small_false"
   ],
   "note": "Exact arithmetic; the rows are independent draws (stated as a hypothesis), the precision reached on the calibration data is the one reported by true_positive_precision / true_negative_precision. Theorems ending in _false exhibit inputs on which a stronger reading of the claim fails."
  },
  {
   "property": "C125",
   "status": "proved",
   "theorems": [
    "Verif.Props.C125_rate",
    "Verif.Props.C125_bracket",
    "Verif.Props.C125_limit",
    "Verif.Props.C125_bound",
    "Verif.Props.C125_leading",
    "Verif.Props.C125_calls",
    "Verif.Props.C125_settled",
    "Verif.Props.C125_almost_surely",
    "Verif.Props.C125_text_stored",
    "Verif.Props.C125_text_kernel",
    "Verif.Props.C125_text_false"
   ],
   "note": "Exact real arithmetic; eps is the constant under the square root of _l2_normalize, and the first product with the stored vector must be at least sqrt(eps) (times the length of the stored vector if that is more than 1). The kernel is held fixed during the iterations. Theorems ending in _false exhibit inputs on which a stronger reading of the claim fails."
  },
  {
   "property": "C126",
   "status": "proved",
   "theorems": [
    "Verif.Props.C126_residual",
    "Verif.Props.C126_features",
    "Verif.Props.C126_mlp",
    "Verif.Props.C126_narrow_false",
    "Verif.Props.C126_mlp_false",
    "Verif.Props.C126_one_false"
   ],
   "note": "Dropout is the identity (outside training). Residual layers of equal width (other widths are refused or broadcast, C90). The spectral norms of the kernels are hypotheses here; C79 and C125 say when normalisation provides them. Theorems ending in _false exhibit inputs on which a stronger reading of the claim fails."
  },
  {
   "property": "C127",
   "status": "proved",
   "theorems": [
    "Verif.Props.C127_same",
    "Verif.Props.C127_same_iterations",
    "Verif.Props.C127_init_padding",
    "Verif.Props.C127_init_odd",
    "Verif.Props.C127_init_false",
    "Verif.Props.C127_reshaped",
    "Verif.Props.C127_reshaped_false"
   ],
   "note": "One image at a time, no bias, exact real arithmetic. Contract: nn.Conv is the cross-correlation of the zero padded image and SAME puts the smaller half of the padding first. Theorems ending in _false exhibit inputs on which a stronger reading of the claim fails."
  },
  {
   "property": "C128",
   "status": "proved",
   "theorems": [
    "Verif.Props.OneShotLaw.C128_patches",
    "Verif.Props.OneShotLaw.C128_applied",
    "Verif.Props.OneShotLaw.C128_calibrated",
    "Verif.Props.OneShotLaw.C128_gap_false"
   ],
   "note": "Exact real arithmetic; scores in [0,1]; the cells must be measurable sets. Rows applied in one batch with others can get another patch (C57). Theorems ending in _false exhibit inputs on which a stronger reading of the claim fails."
  },
  {
   "property": "C129",
   "status": "proved",
   "theorems": [
    "Verif.Props.BatchMVPLaw.C129_uniform",
    "Verif.Props.BatchMVPLaw.C129_calibrated",
    "Verif.Props.BatchMVPLaw.C129_groups",
    "Verif.Props.BatchMVPLaw.C129_new_row",
    "Verif.Props.BatchMVPLaw.C129_patched",
    "Verif.Props.BatchMVPLaw.C129_converged_false"
   ],
   "note": "Uniform over all lists of patches the code can make, so early stopping and the choice of cells by the data do not matter. C129_uniform, _calibrated, _groups, _new_row, _patched; C129_converged_false refutes that convergence means coverage. Theorems ending in _false exhibit inputs on which a stronger reading of the claim fails."
  },
  {
   "property": "C130",
   "status": "proved",
   "theorems": [
    "Verif.Props.Plot.C130_accepted",
    "Verif.Props.Plot.C130_grid_alone_false",
    "Verif.Props.Plot.C130_cells",
    "Verif.Props.Plot.C130_auto_mesh",
    "Verif.Props.Plot.C130_given_grid",
    "Verif.Props.Plot.C130_colours",
    "Verif.Props.Plot.C130_colours_false",
    "Verif.Props.Plot.C130_ticks_false",
    "Verif.Props.Plot.C130_radar",
    "Verif.Props.Plot.C130_radar_open_false",
    "Verif.Props.Plot.C130_curve",
    "Verif.Props.Plot.C130_curve_order",
    "Verif.Props.Plot.C130_reliability",
    "Verif.Props.Plot.C130_band",
    "Verif.Props.Plot.C130_band_false"
   ],
   "note": "The drawing library itself is not modelled. Theorems ending in _false exhibit inputs on which a stronger reading of the claim fails."
  },
  {
   "property": "C131",
   "status": "proved",
   "theorems": [
    "Verif.Props.SagemakerJob.C131_channels",
    "Verif.Props.SagemakerJob.C131_null_path_false",
    "Verif.Props.SagemakerJob.C131_hparams",
    "Verif.Props.SagemakerJob.C131_name",
    "Verif.Props.SagemakerJob.C131_run",
    "Verif.Props.SagemakerJob.C131_minimal_false",
    "Verif.Props.SagemakerJob.C131_needed_false",
    "Verif.Props.SagemakerJob.C131_tuner_false",
    "Verif.Props.SagemakerJob.C131_name_false",
    "Verif.Props.SagemakerJob.C131_errors"
   ],
   "note": "The AWS session, profiler and the job itself are not modelled. Theorems ending in _false exhibit inputs on which a stronger reading of the claim fails."
  },
  {
   "property": "C132",
   "status": "proved",
   "theorems": [
    "Verif.Props.Monitor.C132_accepted",
    "Verif.Props.Monitor.C132_status",
    "Verif.Props.Monitor.C132_failures",
    "Verif.Props.Monitor.C132_none_false",
    "Verif.Props.Monitor.C132_nameless_false",
    "Verif.Props.Monitor.C132_collision_false",
    "Verif.Props.Monitor.C132_step",
    "Verif.Props.Monitor.C132_int_false"
   ],
   "note": "Names and exceptions only (values are C94); MAP trainer; metrics are assumed not to raise. Theorems ending in _false exhibit inputs on which a stronger reading of the claim fails."
  },
  {
   "property": "C133",
   "status": "proved",
   "theorems": [
    "Verif.Props.ConditionalCoverage.C133_classification_at_least",
    "Verif.Props.ConditionalCoverage.C133_classification_at_most",
    "Verif.Props.ConditionalCoverage.C133_quantile_at_least",
    "Verif.Props.ConditionalCoverage.C133_quantile_at_most",
    "Verif.Props.ConditionalCoverage.C133_onedim_at_least",
    "Verif.Props.ConditionalCoverage.C133_onedim_at_most",
    "Verif.Props.ConditionalCoverage.C133_every_calibration_false"
   ],
   "note": "Theorems ending in _false exhibit inputs on which a stronger reading of the claim fails."
  },
  {
   "property": "C134",
   "status": "proved",
   "theorems": [
    "Verif.Props.ScalingLaw.C134_bias",
    "Verif.Props.ScalingLaw.C134_brier",
    "Verif.Props.ScalingLaw.C134_f1",
    "Verif.Props.ScalingLaw.C134_clipped_false"
   ],
   "note": "Theorems ending in _false exhibit inputs on which a stronger reading of the claim fails."
  },
  {
   "property": "C135",
   "status": "proved",
   "theorems": [
    "Verif.Props.C135_all",
    "Verif.Props.C135_refused",
    "Verif.Props.C135_frozen_false"
   ],
   "note": "Theorems ending in _false exhibit inputs on which a stronger reading of the claim fails."
  },
  {
   "property": "C136",
   "status": "proved",
   "theorems": [
    "Verif.Props.ValidationLaw.C136_new_row",
    "Verif.Props.ValidationLaw.C136_prefix",
    "Verif.Props.ValidationLaw.C136_entry",
    "Verif.Props.ValidationLaw.C136_losses",
    "Verif.Props.ValidationLaw.C136_no_worse",
    "Verif.Props.ValidationLaw.C136_small_false"
   ],
   "note": "the calibration rows are arbitrary but fixed, i.e. the statement is conditional on the calibration part of the random split; the discarded last round is not covered Theorems ending in _false exhibit inputs on which a stronger reading of the claim fails."
  },
  {
   "property": "C137",
   "status": "proved",
   "theorems": [
    "Verif.Props.EnbPILaw.C137_online_covers",
    "Verif.Props.EnbPILaw.C137_online_at_most",
    "Verif.Props.EnbPILaw.C137_long_run",
    "Verif.Props.EnbPILaw.C137_nominal_false",
    "Verif.Props.EnbPILaw.C137_shortfall"
   ],
   "note": "Exact arithmetic; the predictions of the fitted models are given functions of the input. The counterpart for the first intervals, from out-of-bag residuals of training data, is not claimed: those residuals depend on the models. Theorems ending in _false exhibit inputs on which a stronger reading of the claim fails."
  },
  {
   "property": "C138",
   "status": "proved",
   "theorems": [
    "Verif.Props.Cyclical.C138_law",
    "Verif.Props.Cyclical.C138_schedule",
    "Verif.Props.Cyclical.C138_limit",
    "Verif.Props.Cyclical.C138_small_steps",
    "Verif.Props.Cyclical.C138_posterior_false",
    "Verif.Props.Cyclical.C138_converges",
    "Verif.Props.Cyclical.C138_share",
    "Verif.Props.Cyclical.C138_long_cycles"
   ],
   "note": "Exact arithmetic; full-batch gradients; identity preconditioner. The limits are taken in the order: number of cycles, initial step size, cycle length. Theorems ending in _false exhibit inputs on which a stronger reading of the claim fails."
  },
  {
   "property": "C139",
   "status": "proved",
   "theorems": [
    "Verif.Props.MapLaw.C139_mode",
    "Verif.Props.MapLaw.C139_maximum",
    "Verif.Props.MapLaw.C139_iterates",
    "Verif.Props.MapLaw.C139_distance",
    "Verif.Props.MapLaw.C139_finds_mode",
    "Verif.Props.MapLaw.C139_gradient",
    "Verif.Props.MapLaw.C139_classifier",
    "Verif.Props.MapLaw.C139_minibatch_false",
    "Verif.Props.MapLaw.C139_large_rate_false"
   ],
   "note": "Exact arithmetic. `optax.sgd` is its documented update; gradients by jax are the derivatives. Batches are drawn in any fixed order. Theorems ending in _false exhibit inputs on which a stronger reading of the claim fails."
  },
  {
   "property": "C140",
   "status": "proved",
   "theorems": [
    "Verif.Props.LogConcave.C140_same_noise",
    "Verif.Props.LogConcave.C140_cyclical",
    "Verif.Props.LogConcave.C140_forgets",
    "Verif.Props.LogConcave.C140_distance",
    "Verif.Props.LogConcave.C140_constant",
    "Verif.Props.LogConcave.C140_flat_false",
    "Verif.Props.LogConcave.C140_sharp"
   ],
   "note": "Exact arithmetic; identity preconditioner and no momentum. The distance from the mode is for full-batch gradients. Theorems ending in _false exhibit inputs on which a stronger reading of the claim fails."
  },
  {
   "property": "C141",
   "status": "proved",
   "theorems": [
    "Verif.Props.MapSchedule.C141_iterates",
    "Verif.Props.MapSchedule.C141_converges",
    "Verif.Props.MapSchedule.C141_finds_mode",
    "Verif.Props.MapSchedule.C141_inverse",
    "Verif.Props.MapSchedule.C141_per_epoch",
    "Verif.Props.MapSchedule.C141_classifier"
   ],
   "note": "Exact arithmetic. `optax.sgd` with a schedule is its documented update; gradients by jax are the derivatives."
  },
  {
   "property": "C142",
   "status": "proved",
   "theorems": [
    "Verif.Props.TextBatch.C142_sequence",
    "Verif.Props.TextBatch.C142_sequence_max",
    "Verif.Props.TextBatch.C142_sequence_off",
    "Verif.Props.TextBatch.C142_sequence_multiple_false",
    "Verif.Props.TextBatch.C142_choices",
    "Verif.Props.TextBatch.C142_choices_max_false",
    "Verif.Props.TextBatch.C142_lm",
    "Verif.Props.TextBatch.C142_lm_max_false",
    "Verif.Props.TextBatch.C142_lm_no_mask",
    "Verif.Props.TextBatch.C142_chunks",
    "Verif.Props.TextBatch.C142_chunks_false",
    "Verif.Props.TextBatch.C142_columns"
   ],
   "note": "Tokenizer, `tokenizer.pad` and `datasets.map` by their documented contracts; padding on the right. Theorems ending in _false exhibit inputs on which a stronger reading of the claim fails."
  },
  {
   "property": "C143",
   "status": "proved",
   "theorems": [
    "Verif.Props.StringClean.C143_content",
    "Verif.Props.StringClean.C143_trimmed",
    "Verif.Props.StringClean.C143_again",
    "Verif.Props.StringClean.C143_punctuation",
    "Verif.Props.StringClean.C143_capital_false",
    "Verif.Props.StringClean.C143_words_false",
    "Verif.Props.StringClean.C143_spaces_false"
   ],
   "note": "Characters whose upper or lower case is more than one character are not modelled; spaces are the ASCII ones. Theorems ending in _false exhibit inputs on which a stronger reading of the claim fails."
  },
  {
   "property": "C144",
   "status": "proved",
   "theorems": [
    "Verif.Props.Langevin.C144_law",
    "Verif.Props.Langevin.C144_converges",
    "Verif.Props.Langevin.C144_stable",
    "Verif.Props.Langevin.C144_small_steps",
    "Verif.Props.Langevin.C144_posterior_false",
    "Verif.Props.Langevin.C144_every_step",
    "Verif.Props.Langevin.C144_rare"
   ],
   "note": "Noise and gradients as real numbers; noise of different keys is independent by assumption. Theorems ending in _false exhibit inputs on which a stronger reading of the claim fails."
  },
  {
   "property": "C145",
   "status": "proved",
   "theorems": [
    "Verif.Props.Rmsprop.C145_step",
    "Verif.Props.Rmsprop.C145_bounded",
    "Verif.Props.Rmsprop.C145_mean_distance",
    "Verif.Props.Rmsprop.C145_flat",
    "Verif.Props.Rmsprop.C145_mode_false",
    "Verif.Props.Rmsprop.C145_second_moment",
    "Verif.Props.Rmsprop.C145_identity",
    "Verif.Props.Rmsprop.C145_posterior_false",
    "Verif.Props.Rmsprop.C145_stationary_false"
   ],
   "note": "Noise and gradients as real numbers; noise independent of the sample by assumption. That kept distributions differ from the posterior is shown for running_average_factor = 0, the first-order bias for all factors below 1. Theorems ending in _false exhibit inputs on which a stronger reading of the claim fails."
  },
  {
   "property": "C146",
   "status": "proved",
   "theorems": [
    "Verif.Props.C146_uncalibrated",
    "Verif.Props.C146_calibrated",
    "Verif.Props.C146_missing_params",
    "Verif.Props.C146_statistics",
    "Verif.Props.C146_log_prob",
    "Verif.Props.C146_refused",
    "Verif.Props.C146_sample",
    "Verif.Props.C146_categorical",
    "Verif.Props.C146_normal",
    "Verif.Props.C146_normal_entropy",
    "Verif.Props.C146_std",
    "Verif.Props.C146_mixing_rows_false"
   ],
   "note": "Network parameters fixed, evaluation outside training (row by row); real arithmetic; keyword arguments beyond those named are not passed. Theorems ending in _false exhibit inputs on which a stronger reading of the claim fails."
  },
  {
   "property": "C147",
   "status": "proved",
   "theorems": [
    "Verif.Props.C147_classifier",
    "Verif.Props.C147_sngp_head",
    "Verif.Props.C147_no_head",
    "Verif.Props.C147_calib",
    "Verif.Props.C147_layer",
    "Verif.Props.C147_layer_false",
    "Verif.Props.C147_independent",
    "Verif.Props.C147_unknown",
    "Verif.Props.C147_kwargs",
    "Verif.Props.C147_defaults",
    "Verif.Props.C147_kwargs_false",
    "Verif.Props.C147_regressor",
    "Verif.Props.C147_regressor_sngp_false"
   ],
   "note": "Theorems ending in _false exhibit inputs on which a stronger reading of the claim fails."
  },
  {
   "property": "C148",
   "status": "proved",
   "theorems": [
    "Verif.Props.EnsembleTemp.C148_best_member",
    "Verif.Props.EnsembleTemp.C148_pareto",
    "Verif.Props.EnsembleTemp.C148_regression",
    "Verif.Props.EnsembleTemp.C148_one_row",
    "Verif.Props.EnsembleTemp.C148_predictive_false",
    "Verif.Props.EnsembleTemp.C148_classification"
   ],
   "note": "Theorems ending in _false exhibit inputs on which a stronger reading of the claim fails."
  },
  {
   "property": "C149",
   "status": "proved",
   "theorems": [
    "Verif.Props.EnsembleFit.C149_members",
    "Verif.Props.EnsembleFit.C149_collapse",
    "Verif.Props.EnsembleFit.C149_agree",
    "Verif.Props.EnsembleFit.C149_gaussian",
    "Verif.Props.EnsembleFit.C149_posterior_false"
   ],
   "note": "Theorems ending in _false exhibit inputs on which a stronger reading of the claim fails."
  },
  {
   "property": "C150",
   "status": "proved",
   "theorems": [
    "Verif.Props.BatchMomentum.C150_sampler",
    "Verif.Props.BatchMomentum.C150_law",
    "Verif.Props.BatchMomentum.C150_random",
    "Verif.Props.BatchMomentum.C150_random_false",
    "Verif.Props.BatchMomentum.C150_cycle"
   ],
   "note": "Only the limits of mean and variance, not of the law, are proved for random batches (the centres of the batches need not be normal). Batches drawn independently: the loader shuffles without replacement, for which only the fixed-order and given-batches statements apply. Theorems ending in _false exhibit inputs on which a stronger reading of the claim fails."
  },
  {
   "property": "C151",
   "status": "proved",
   "theorems": [
    "Verif.Props.LoaderEpochs.C151_same",
    "Verif.Props.LoaderEpochs.C151_pass",
    "Verif.Props.LoaderEpochs.C151_matched",
    "Verif.Props.LoaderEpochs.C151_run",
    "Verif.Props.LoaderEpochs.C151_shuffle_false",
    "Verif.Props.LoaderEpochs.C151_sgld",
    "Verif.Props.LoaderEpochs.C151_thinning_false"
   ],
   "note": "numpy's generators are a contract: a generator made from a seed draws the same permutation whenever it is made. Theorems ending in _false exhibit inputs on which a stronger reading of the claim fails."
  },
  {
   "property": "C152",
   "status": "proved",
   "theorems": [
    "Verif.Props.Reshuffle.C152_centre",
    "Verif.Props.Reshuffle.C152_perm_mean",
    "Verif.Props.Reshuffle.C152_perm_variance",
    "Verif.Props.Reshuffle.C152_law",
    "Verif.Props.Reshuffle.C152_batch",
    "Verif.Props.Reshuffle.C152_between",
    "Verif.Props.Reshuffle.C152_between_false",
    "Verif.Props.Reshuffle.C152_within",
    "Verif.Props.Reshuffle.C152_between_within",
    "Verif.Props.Reshuffle.C152_sampler"
   ],
   "note": "That a loader reshuffles uniformly and independently is a hypothesis (about torch or numpy); the default array loaders do not (C151). Theorems ending in _false exhibit inputs on which a stronger reading of the claim fails."
  },
  {
   "property": "C153",
   "status": "proved",
   "theorems": [
    "Verif.Props.CalibMetrics.C153_reported",
    "Verif.Props.CalibMetrics.C153_predictions",
    "Verif.Props.CalibMetrics.C153_constant",
    "Verif.Props.CalibMetrics.C153_agree",
    "Verif.Props.CalibMetrics.C153_single",
    "Verif.Props.CalibMetrics.C153_regression",
    "Verif.Props.CalibMetrics.C153_regression_outputs",
    "Verif.Props.CalibMetrics.C153_missing",
    "Verif.Props.CalibMetrics.C153_mode_false",
    "Verif.Props.CalibMetrics.C153_accuracy_false",
    "Verif.Props.CalibMetrics.C153_variance_false"
   ],
   "note": "The predictive methods are compared on the ensemble used for calibration (its posterior samples stand for those the predictive would draw). Several devices are not treated here (C85). Theorems ending in _false exhibit inputs on which a stronger reading of the claim fails."
  },
  {
   "property": "C154",
   "status": "proved",
   "theorems": [
    "Verif.Props.EssLaw.C154_power",
    "Verif.Props.EssLaw.C154_autocov",
    "Verif.Props.EssLaw.C154_pad",
    "Verif.Props.EssLaw.C154_formula",
    "Verif.Props.EssLaw.C154_meaning",
    "Verif.Props.EssLaw.C154_share",
    "Verif.Props.EssLaw.C154_antithetic_false",
    "Verif.Props.EssLaw.C154_corr",
    "Verif.Props.EssLaw.C154_average",
    "Verif.Props.EssLaw.C154_sampler"
   ],
   "note": "That the truncated estimate converges to the documented quantity as the chain grows is not treated. jnp.fft is taken to be the exact discrete Fourier transform. Theorems ending in _false exhibit inputs on which a stronger reading of the claim fails."
  },
  {
   "property": "C155",
   "status": "proved",
   "theorems": [
    "Verif.Props.AdviBound.C155_loss",
    "Verif.Props.AdviBound.C155_bound",
    "Verif.Props.AdviBound.C155_local",
    "Verif.Props.AdviBound.C155_unique",
    "Verif.Props.AdviBound.C155_kl",
    "Verif.Props.AdviBound.C155_error",
    "Verif.Props.AdviBound.C155_probability",
    "Verif.Props.AdviBound.C155_samples",
    "Verif.Props.AdviBound.C155_one",
    "Verif.Props.AdviBound.C155_classifier"
   ],
   "note": "The loss is integrated over the base draws; the law of the base draws is a hypothesis (C76 fixes the pushed-forward draws and their density). Convergence of the optimiser is not stated."
  },
  {
   "property": "C156",
   "status": "proved",
   "theorems": [
    "Verif.Props.AdviNewData.C156_parts",
    "Verif.Props.AdviNewData.C156_new_data",
    "Verif.Props.AdviNewData.C156_brier",
    "Verif.Props.AdviNewData.C156_laplace",
    "Verif.Props.AdviNewData.C156_laplace_new_data",
    "Verif.Props.AdviNewData.C156_laplace_tuned"
   ],
   "note": "The training points are independent draws from one distribution (a hypothesis); errors are those of exact averages over the approximate posterior, not of finitely many samples."
  },
  {
   "property": "C157",
   "status": "proved",
   "theorems": [
    "Verif.Props.EarlyStopLaw.C157_path",
    "Verif.Props.EarlyStopLaw.C157_max",
    "Verif.Props.EarlyStopLaw.C157_near",
    "Verif.Props.EarlyStopLaw.C157_calibration_near",
    "Verif.Props.EarlyStopLaw.C157_new_data",
    "Verif.Props.EarlyStopLaw.C157_new_data_max",
    "Verif.Props.EarlyStopLaw.C157_calibration",
    "Verif.Props.EarlyStopLaw.C157_best_false"
   ],
   "note": "The monitored value is the average over the validation rows, as it is for a row-averaging metric and batches of equal size (C94); validation rows are independent of each other and fixed apart from the training data and the start (hypotheses). Theorems ending in _false exhibit inputs on which a stronger reading of the claim fails."
  }
 ]
}