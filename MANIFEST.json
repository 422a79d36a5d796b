{
 "claims": [
  {
   "property": "C01",
   "status": "proved",
   "theorems": [
    "OpenML.C01_combinations_enumerates",
    "OpenML.C01_combinations_terminates",
    "OpenML.C01_combinations_mem_iff"
   ],
   "note": ""
  },
  {
   "property": "C02",
   "status": "proved",
   "theorems": [
    "OpenML.C02_remove_duplicate_rows",
    "OpenML.C02_remove_duplicate_rows_terminates",
    "OpenML.C02_remove_duplicate_rows_throws_iff",
    "OpenML.C02_first_occurrences_meaning"
   ],
   "note": ""
  },
  {
   "property": "C03",
   "status": "proved",
   "theorems": [
    "OpenML.C03_argsort_rows",
    "OpenML.C03_argsort_columns",
    "OpenML.C03_argsort_sorts",
    "OpenML.C03_argsort_two_undefined",
    "OpenML.C03_argsort_one_out_of_range",
    "OpenML.C03_argsort_bad_axis"
   ],
   "note": ""
  },
  {
   "property": "C04",
   "status": "proved",
   "theorems": [
    "OpenML.C04_sort2D_columns",
    "OpenML.C04_sort2D_rows",
    "OpenML.C04_sort2D_rejects",
    "OpenML.C04_sort_matrix",
    "OpenML.C04_sorter_exists"
   ],
   "note": ""
  },
  {
   "property": "C05",
   "status": "proved",
   "theorems": [
    "OpenML.C05_sortrows",
    "OpenML.C05_sortrows_rectangular",
    "OpenML.C05_dictionary_strict",
    "OpenML.C05_sortrows_rejects"
   ],
   "note": ""
  },
  {
   "property": "C06",
   "status": "proved",
   "theorems": [
    "OpenML.C06_difference",
    "OpenML.C06_difference_unsorted_counterexample"
   ],
   "note": ""
  },
  {
   "property": "C07",
   "status": "proved",
   "theorems": [
    "OpenML.C07_contains",
    "OpenML.C07_merge",
    "OpenML.C07_is_equal",
    "OpenML.C07_flatten"
   ],
   "note": ""
  },
  {
   "property": "C08",
   "status": "proved",
   "theorems": [
    "OpenML.C08_unique",
    "OpenML.C08_unique_index_not_input_position"
   ],
   "note": ""
  },
  {
   "property": "C09",
   "status": "proved",
   "theorems": [
    "OpenML.C09_slice2D_block",
    "OpenML.C09_slice2D_rejects_wide",
    "OpenML.C09_slice2D_row_overrun"
   ],
   "note": ""
  },
  {
   "property": "C10",
   "status": "proved",
   "theorems": [
    "OpenML.C10_slice1D_never_returns",
    "OpenML.C10_slice1D_in_range_ub",
    "OpenML.C10_argsort_vector"
   ],
   "note": ""
  },
  {
   "property": "C11",
   "status": "proved",
   "theorems": [
    "OpenML.C11_arg_rows",
    "OpenML.C11_arg_columns",
    "OpenML.C11_arg_flat",
    "OpenML.C11_flatten_position",
    "OpenML.C11_arg_rejects",
    "OpenML.C11_arg_empty_line"
   ],
   "note": ""
  },
  {
   "property": "C12",
   "status": "proved",
   "theorems": [
    "OpenML.C12_clip",
    "OpenML.C12_fmin",
    "OpenML.C12_where",
    "OpenML.C12_hstack",
    "OpenML.C12_vstack",
    "OpenML.C12_repeat",
    "OpenML.C12_vec2mat"
   ],
   "note": ""
  },
  {
   "property": "C13",
   "status": "proved",
   "theorems": [
    "OpenML.C13_hash_tree_counts",
    "OpenML.C13_hash_tree_parameters_irrelevant",
    "OpenML.C13_mixed_lengths_lose_entries",
    "OpenML.C13_zero_branching_undefined"
   ],
   "note": ""
  },
  {
   "property": "C14",
   "status": "proved",
   "theorems": [
    "OpenML.C14_compute_frequency_accumulates",
    "OpenML.C14_query_twice_duplicates"
   ],
   "note": ""
  },
  {
   "property": "C15",
   "status": "proved",
   "theorems": [
    "OpenML.C15_build",
    "OpenML.C15_build_undefined",
    "OpenML.C15_leaves_of_three"
   ],
   "note": ""
  },
  {
   "property": "C16",
   "status": "proved",
   "theorems": [
    "OpenML.C16_k_nearest",
    "OpenML.C16_padding",
    "OpenML.C16_zero_neighbours",
    "OpenML.C16_metrics"
   ],
   "note": ""
  },
  {
   "property": "C17",
   "status": "proved",
   "theorems": [
    "OpenML.C17_sound",
    "OpenML.C17_misses_nearest",
    "OpenML.C17_not_nearest"
   ],
   "note": ""
  },
  {
   "property": "C18",
   "status": "proved",
   "theorems": [
    "OpenML.C18_radius",
    "OpenML.C18_nonpositive_radius",
    "OpenML.C18_answers_are_compacted",
    "OpenML.C18_boundary_row_missed"
   ],
   "note": ""
  },
  {
   "property": "C19",
   "status": "proved",
   "theorems": [
    "OpenML.C19_encoder",
    "OpenML.C19_encoder_injective",
    "OpenML.C19_item_zero_lost"
   ],
   "note": ""
  },
  {
   "property": "C20",
   "status": "proved",
   "theorems": [
    "OpenML.C20_never_overstates",
    "OpenML.C20_repetitions_overstate"
   ],
   "note": ""
  },
  {
   "property": "C21",
   "status": "proved",
   "theorems": [
    "OpenML.C21_sound_and_complete",
    "OpenML.C21_positive_threshold",
    "OpenML.C21_min_support"
   ],
   "note": ""
  },
  {
   "property": "C22",
   "status": "proved",
   "theorems": [
    "OpenML.C22_misses_frequent_pair"
   ],
   "note": ""
  },
  {
   "property": "C23",
   "status": "proved",
   "theorems": [
    "OpenML.C23_outcomes",
    "OpenML.C23_ordered",
    "OpenML.C23_two_items_throw"
   ],
   "note": ""
  },
  {
   "property": "C24",
   "status": "proved",
   "theorems": [
    "OpenML.C24_rules",
    "OpenML.C24_end_to_end",
    "OpenML.C24_unsorted_overlap",
    "OpenML.C24_order"
   ],
   "note": ""
  },
  {
   "property": "C25",
   "status": "proved",
   "theorems": [
    "OpenML.C25_train_test_split",
    "OpenML.C25_fraction_in_range",
    "OpenML.C25_out_of_range",
    "OpenML.C25_mismatched"
   ],
   "note": ""
  },
  {
   "property": "C26",
   "status": "proved",
   "theorems": [
    "OpenML.C26_divide_on_feature",
    "OpenML.C26_feature_out_of_range"
   ],
   "note": ""
  },
  {
   "property": "C27",
   "status": "proved",
   "theorems": [
    "OpenML.C27_loadtxt_matrix",
    "OpenML.C27_loadtxt_matrix_failures",
    "OpenML.C27_loadtxt_vectors"
   ],
   "note": ""
  },
  {
   "property": "C28",
   "status": "proved",
   "theorems": [
    "OpenML.C28_var",
    "OpenML.C28_mean",
    "OpenML.C28_sum",
    "OpenML.C28_invalid_axis",
    "OpenML.C28_median_line",
    "OpenML.C28_median",
    "OpenML.C28_center",
    "OpenML.C28_cumsum",
    "OpenML.C28_mode_line",
    "OpenML.C28_mode",
    "OpenML.C28_unchecked_axis",
    "OpenML.C28_empty_line"
   ],
   "note": ""
  },
  {
   "property": "C29",
   "status": "proved",
   "theorems": [
    "OpenML.C29_sigmoid",
    "OpenML.C29_sigmoid_range",
    "OpenML.C29_logsumexp",
    "OpenML.C29_logsumexp_bounds",
    "OpenML.C29_softmax",
    "OpenML.C29_softmax_distribution"
   ],
   "note": ""
  },
  {
   "property": "C30",
   "status": "proved",
   "theorems": [
    "OpenML.C30_values",
    "OpenML.C30_gini_range",
    "OpenML.C30_entropy_range",
    "OpenML.C30_order_independent",
    "OpenML.C30_gini_split",
    "OpenML.C30_entropy_split",
    "OpenML.C30_weighted"
   ],
   "note": ""
  },
  {
   "property": "C31",
   "status": "proved",
   "theorems": [
    "OpenML.C31_columns",
    "OpenML.C31_rows",
    "OpenML.C31_zero_column",
    "OpenML.C31_mismatch"
   ],
   "note": ""
  },
  {
   "property": "C32",
   "status": "proved",
   "theorems": [
    "OpenML.C32_truncated",
    "OpenML.C32_moore_penrose",
    "OpenML.C32_square"
   ],
   "note": ""
  },
  {
   "property": "C33",
   "status": "proved",
   "theorems": [
    "OpenML.C33_euclidean",
    "OpenML.C33_manhattan",
    "OpenML.C33_minkowski_throws",
    "OpenML.C33_minkowski_values",
    "OpenML.C33_minkowski_metric",
    "OpenML.C33_mean_absolute_error",
    "OpenML.C33_explained_variance"
   ],
   "note": ""
  },
  {
   "property": "C34",
   "status": "proved",
   "theorems": [
    "OpenML.C34_counts",
    "OpenML.C34_children",
    "OpenML.C34_training_sample"
   ],
   "note": ""
  },
  {
   "property": "C35",
   "status": "proved",
   "theorems": [
    "OpenML.C35_distribution",
    "OpenML.C35_predict_unspecified",
    "OpenML.C35_empty_leaf"
   ],
   "note": ""
  },
  {
   "property": "C36",
   "status": "proved",
   "theorems": [
    "OpenML.C36_classifier",
    "OpenML.C36_regressor",
    "OpenML.C36_split_rule",
    "OpenML.C36_one_more_level"
   ],
   "note": ""
  },
  {
   "property": "C37",
   "status": "proved",
   "theorems": [
    "OpenML.C37_total",
    "OpenML.C37_null_child"
   ],
   "note": ""
  },
  {
   "property": "C38",
   "status": "proved",
   "theorems": [
    "OpenML.C38_position",
    "OpenML.C38_labels",
    "OpenML.C38_not_a_label"
   ],
   "note": ""
  },
  {
   "property": "C39",
   "status": "proved",
   "theorems": [
    "OpenML.C39_mean_of_leaf"
   ],
   "note": ""
  },
  {
   "property": "C40",
   "status": "proved",
   "theorems": [
    "OpenML.C40_predict",
    "OpenML.C40_iteration",
    "OpenML.C40_strict",
    "OpenML.C40_fit",
    "OpenML.C40_max_iter",
    "OpenML.C40_converges",
    "OpenML.C40_run"
   ],
   "note": ""
  },
  {
   "property": "C41",
   "status": "proved",
   "theorems": [
    "OpenML.C41_plusplus",
    "OpenML.C41_new_centroid",
    "OpenML.C41_zero_draw",
    "OpenML.C41_fit",
    "OpenML.C41_random"
   ],
   "note": ""
  },
  {
   "property": "C42",
   "status": "proved",
   "theorems": [
    "OpenML.C42_classes",
    "OpenML.C42_priors",
    "OpenML.C42_refit"
   ],
   "note": ""
  },
  {
   "property": "C43",
   "status": "proved",
   "theorems": [
    "OpenML.C43_predict_prob",
    "OpenML.C43_predict"
   ],
   "note": ""
  },
  {
   "property": "C44",
   "status": "proved",
   "theorems": [
    "OpenML.C44_counts",
    "OpenML.C44_smoothed",
    "OpenML.C44_joint"
   ],
   "note": ""
  },
  {
   "property": "C45",
   "status": "proved",
   "theorems": [
    "OpenML.C45_mse",
    "OpenML.C45_log",
    "OpenML.C45_softmax"
   ],
   "note": ""
  },
  {
   "property": "C46",
   "status": "proved",
   "theorems": [
    "OpenML.C46_buffer",
    "OpenML.C46_subgradient"
   ],
   "note": ""
  },
  {
   "property": "C47",
   "status": "proved",
   "theorems": [
    "OpenML.C47_shuffle_pairs",
    "OpenML.C47_publishes_iff",
    "OpenML.C47_throws",
    "OpenML.C47_dichotomy"
   ],
   "note": ""
  },
  {
   "property": "C48",
   "status": "proved",
   "theorems": [
    "OpenML.C48_remainder_ignored",
    "OpenML.C48_large_batch",
    "OpenML.C48_large_batch_outcome"
   ],
   "note": ""
  },
  {
   "property": "C49",
   "status": "proved",
   "theorems": [
    "OpenML.C49_sag_direction",
    "OpenML.C49_sag_run",
    "OpenML.C49_sag_pass",
    "OpenML.C49_average_iff"
   ],
   "note": ""
  },
  {
   "property": "C50",
   "status": "proved",
   "theorems": [
    "OpenML.C50_truncate",
    "OpenML.C50_soft_threshold",
    "OpenML.C50_tg_pass"
   ],
   "note": ""
  },
  {
   "property": "C51",
   "status": "proved",
   "theorems": [
    "OpenML.C51_step_optimal",
    "OpenML.C51_step_descends",
    "OpenML.C51_fixpoint_optimal",
    "OpenML.C51_run_descends",
    "OpenML.C51_mse"
   ],
   "note": ""
  },
  {
   "property": "C52",
   "status": "proved",
   "theorems": [
    "OpenML.C52_step_decay",
    "OpenML.C52_step_decay_steps",
    "OpenML.C52_exponential_grows",
    "OpenML.C52_exponential_unbounded",
    "OpenML.C52_momentum",
    "OpenML.C52_momentum_run",
    "OpenML.C52_vanilla"
   ],
   "note": ""
  },
  {
   "property": "C53",
   "status": "proved",
   "theorems": [
    "OpenML.C53_success",
    "OpenML.C53_failure",
    "OpenML.C53_backtracking_steps",
    "OpenML.C53_bracketing_steps",
    "OpenML.C53_armijo_first"
   ],
   "note": ""
  },
  {
   "property": "C54",
   "status": "proved",
   "theorems": [
    "OpenML.C54_never_worse",
    "OpenML.C54_stationary_start",
    "OpenML.C54_unknown_search",
    "OpenML.C54_bracketing_factors",
    "OpenML.C54_past_zero",
    "OpenML.C54_terminates",
    "OpenML.C54_defined_reads"
   ],
   "note": ""
  },
  {
   "property": "C55",
   "status": "proved",
   "theorems": [
    "OpenML.C55_direction",
    "OpenML.C55_secant"
   ],
   "note": ""
  },
  {
   "property": "C56",
   "status": "proved",
   "theorems": [
    "OpenML.C56_linear",
    "OpenML.C56_ridge",
    "OpenML.C56_ridge_zero"
   ],
   "note": ""
  },
  {
   "property": "C57",
   "status": "proved",
   "theorems": [
    "OpenML.C57_lasso_intercept",
    "OpenML.C57_lasso_no_intercept",
    "OpenML.C57_perceptron_intercept",
    "OpenML.C57_perceptron_no_intercept",
    "OpenML.C57_softmax",
    "OpenML.C57_softmax_untrained"
   ],
   "note": ""
  },
  {
   "property": "C58",
   "status": "proved",
   "theorems": [
    "OpenML.C58_predicts_less_likely",
    "OpenML.C58_all_wrong",
    "OpenML.C58_prob"
   ],
   "note": ""
  },
  {
   "property": "C59",
   "status": "proved",
   "theorems": [
    "OpenML.C59_transform"
   ],
   "note": ""
  },
  {
   "property": "C60",
   "status": "proved",
   "theorems": [
    "OpenML.C60_shapes",
    "OpenML.C60_unknown_solver"
   ],
   "note": ""
  },
  {
   "property": "C61",
   "status": "proved",
   "theorems": [
    "OpenML.C61_stops_unique",
    "OpenML.C61_fit",
    "OpenML.C61_predict",
    "OpenML.C61_weights"
   ],
   "note": ""
  },
  {
   "property": "C62",
   "status": "proved",
   "theorems": [
    "OpenML.C62_log_density"
   ],
   "note": ""
  },
  {
   "property": "C63",
   "status": "proved",
   "theorems": [
    "OpenML.C63_shuffle_rows",
    "OpenML.C63_shuffle_columns"
   ],
   "note": ""
  },
  {
   "property": "C64",
   "status": "proved",
   "theorems": [
    "OpenML.C64_best_split"
   ],
   "note": ""
  },
  {
   "property": "C65",
   "status": "proved",
   "theorems": [
    "OpenML.C65_returns",
    "OpenML.C65_criteria",
    "OpenML.C65_small_node"
   ],
   "note": ""
  },
  {
   "property": "C66",
   "status": "proved",
   "theorems": [
    "OpenML.C66_absolute_error",
    "OpenML.C66_fit_fails",
    "OpenML.C66_unknown_criterion"
   ],
   "note": ""
  },
  {
   "property": "C67",
   "status": "proved",
   "theorems": [
    "OpenML.C67_refit"
   ],
   "note": ""
  },
  {
   "property": "C68",
   "status": "proved",
   "theorems": [
    "OpenML.C68_gini_splits_pure",
    "OpenML.C68_entropy_keeps_pure"
   ],
   "note": ""
  },
  {
   "property": "C69",
   "status": "proved",
   "theorems": [
    "OpenML.C69_squared_error",
    "OpenML.C69_repeated_maximum"
   ],
   "note": ""
  },
  {
   "property": "C70",
   "status": "proved",
   "theorems": [
    "OpenML.C70_assertions"
   ],
   "note": ""
  },
  {
   "property": "C71",
   "status": "proved",
   "theorems": [
    "OpenML.C71_fit",
    "OpenML.C71_joint",
    "OpenML.C71_predict_ignores_priors",
    "OpenML.C71_checked"
   ],
   "note": ""
  },
  {
   "property": "C72",
   "status": "proved",
   "theorems": [
    "OpenML.C72_few_features",
    "OpenML.C72_multinomial_checked"
   ],
   "note": ""
  },
  {
   "property": "C73",
   "status": "proved",
   "theorems": [
    "OpenML.C73_cov"
   ],
   "note": ""
  },
  {
   "property": "C74",
   "status": "proved",
   "theorems": [
    "OpenML.C74_logdet"
   ],
   "note": ""
  },
  {
   "property": "C75",
   "status": "proved",
   "theorems": [
    "OpenML.C75_lu",
    "OpenML.C75_not_recovered"
   ],
   "note": ""
  },
  {
   "property": "C76",
   "status": "proved",
   "theorems": [
    "OpenML.C76_thin_qr"
   ],
   "note": ""
  },
  {
   "property": "C77",
   "status": "proved",
   "theorems": [
    "OpenML.C77_residuals"
   ],
   "note": ""
  },
  {
   "property": "C78",
   "status": "proved",
   "theorems": [
    "OpenML.C78_mse",
    "OpenML.C78_log"
   ],
   "note": ""
  },
  {
   "property": "C79",
   "status": "proved",
   "theorems": [
    "OpenML.C79_huber"
   ],
   "note": ""
  },
  {
   "property": "C80",
   "status": "proved",
   "theorems": [
    "OpenML.C80_solver_penalty"
   ],
   "note": ""
  },
  {
   "property": "C81",
   "status": "proved",
   "theorems": [
    "OpenML.C81_label_zero_ignored",
    "OpenML.C81_predict_never_negative"
   ],
   "note": ""
  },
  {
   "property": "C82",
   "status": "proved",
   "theorems": [
    "OpenML.C82_bias_ignored",
    "OpenML.C82_predict"
   ],
   "note": ""
  },
  {
   "property": "C83",
   "status": "proved",
   "theorems": [
    "OpenML.C83_descent",
    "OpenML.C83_total"
   ],
   "note": ""
  },
  {
   "property": "C84",
   "status": "proved",
   "theorems": [
    "OpenML.C84_defined",
    "OpenML.C84_components",
    "OpenML.C84_max_variance",
    "OpenML.C84_ratio"
   ],
   "note": ""
  },
  {
   "property": "C85",
   "status": "proved",
   "theorems": [
    "OpenML.C85_covariance"
   ],
   "note": ""
  },
  {
   "property": "C86",
   "status": "proved",
   "theorems": [
    "OpenML.C86_score",
    "OpenML.C86_stale",
    "OpenML.C86_order"
   ],
   "note": ""
  },
  {
   "property": "C87",
   "status": "proved",
   "theorems": [
    "OpenML.C87_exact",
    "OpenML.C87_components"
   ],
   "note": ""
  },
  {
   "property": "C88",
   "status": "proved",
   "theorems": [
    "OpenML.C88_left_vectors"
   ],
   "note": ""
  },
  {
   "property": "C89",
   "status": "proved",
   "theorems": [
    "OpenML.C89_covariances"
   ],
   "note": ""
  },
  {
   "property": "C90",
   "status": "proved",
   "theorems": [
    "OpenML.C90_too_few",
    "OpenML.C90_never_converges",
    "OpenML.C90_tied",
    "OpenML.C90_names",
    "OpenML.C90_unfitted",
    "OpenML.C90_refit"
   ],
   "note": ""
  },
  {
   "property": "C91",
   "status": "proved",
   "theorems": [
    "OpenML.C91_one_component"
   ],
   "note": ""
  },
  {
   "property": "C92",
   "status": "proved",
   "theorems": [
    "OpenML.C92_step",
    "OpenML.C92_loop",
    "OpenML.C92_start"
   ],
   "note": ""
  },
  {
   "property": "C93",
   "status": "proved",
   "theorems": [
    "OpenML.C93_classifier",
    "OpenML.C93_regressor"
   ],
   "note": ""
  },
  {
   "property": "C94",
   "status": "proved",
   "theorems": [
    "OpenML.C94_classifier",
    "OpenML.C94_regressor",
    "OpenML.C94_negative_factor"
   ],
   "note": ""
  },
  {
   "property": "C95",
   "status": "proved",
   "theorems": [
    "OpenML.C95_order"
   ],
   "note": ""
  },
  {
   "property": "C96",
   "status": "proved",
   "theorems": [
    "OpenML.C96_units"
   ],
   "note": ""
  },
  {
   "property": "C97",
   "status": "proved",
   "theorems": [
    "OpenML.C97_correction_budget",
    "OpenML.C97_separates",
    "OpenML.C97_predict",
    "OpenML.C97_threshold",
    "OpenML.C97_perceptron"
   ],
   "note": ""
  },
  {
   "property": "C98",
   "status": "proved",
   "theorems": [
    "OpenML.C98_drift",
    "OpenML.C98_stuck"
   ],
   "note": ""
  },
  {
   "property": "C99",
   "status": "proved",
   "theorems": [
    "OpenML.C99_brute",
    "OpenML.C99_brute_throws",
    "OpenML.C99_kdtree"
   ],
   "note": ""
  },
  {
   "property": "C100",
   "status": "proved",
   "theorems": [
    "OpenML.C100_density",
    "OpenML.C100_shape"
   ],
   "note": ""
  },
  {
   "property": "C101",
   "status": "proved",
   "theorems": [
    "OpenML.C101_sign_abs",
    "OpenML.C101_power",
    "OpenML.C101_power_matrix",
    "OpenML.C101_norm2",
    "OpenML.C101_row_norms",
    "OpenML.C101_diagmat"
   ],
   "note": ""
  },
  {
   "property": "C102",
   "status": "proved",
   "theorems": [
    "OpenML.C102_path",
    "OpenML.C102_bound",
    "OpenML.C102_least_squares"
   ],
   "note": ""
  },
  {
   "property": "C103",
   "status": "proved",
   "theorems": [
    "OpenML.C103_features",
    "OpenML.C103_rotations",
    "OpenML.C103_order",
    "OpenML.C103_targets"
   ],
   "note": ""
  },
  {
   "property": "C104",
   "status": "proved",
   "theorems": [
    "OpenML.C104_training_loss"
   ],
   "note": ""
  },
  {
   "property": "C105",
   "status": "proved",
   "theorems": [
    "OpenML.C105_goes_on",
    "OpenML.C105_ends"
   ],
   "note": ""
  },
  {
   "property": "C106",
   "status": "proved",
   "theorems": [
    "OpenML.C106_mse_descends",
    "OpenML.C106_mse_rate",
    "OpenML.C106_mse_gradient",
    "OpenML.C106_mse_accuracy",
    "OpenML.C106_log_descends",
    "OpenML.C106_log_rate",
    "OpenML.C106_log_gradient",
    "OpenML.C106_log_accuracy"
   ],
   "note": ""
  },
  {
   "property": "C107",
   "status": "proved",
   "theorems": [
    "OpenML.C107_lasso",
    "OpenML.C107_logistic"
   ],
   "note": ""
  },
  {
   "property": "C108",
   "status": "proved",
   "theorems": [
    "OpenML.C108_sag",
    "OpenML.C108_mse",
    "OpenML.C108_logistic",
    "OpenML.C108_logistic_descends"
   ],
   "note": ""
  },
  {
   "property": "C109",
   "status": "proved",
   "theorems": [
    "OpenML.C109_logistic",
    "OpenML.C109_probabilities",
    "OpenML.C109_lasso"
   ],
   "note": ""
  },
  {
   "property": "C110",
   "status": "proved",
   "theorems": [
    "OpenML.C110_logistic",
    "OpenML.C110_sgd",
    "OpenML.C110_sag",
    "OpenML.C110_lasso"
   ],
   "note": ""
  },
  {
   "property": "C111",
   "status": "proved",
   "theorems": [
    "OpenML.C111_permutation",
    "OpenML.C111_uniform",
    "OpenML.C111_choices",
    "OpenML.C111_position",
    "OpenML.C111_kmeans",
    "OpenML.C111_split"
   ],
   "note": ""
  },
  {
   "property": "C112",
   "status": "proved",
   "theorems": [
    "OpenML.C112_step",
    "OpenML.C112_run"
   ],
   "note": ""
  },
  {
   "property": "C113",
   "status": "proved",
   "theorems": [
    "OpenML.C113_fit_fails",
    "OpenML.C113_laplacian",
    "OpenML.C113_spectrum"
   ],
   "note": ""
  },
  {
   "property": "C114",
   "status": "proved",
   "theorems": [
    "OpenML.C114_gradient",
    "OpenML.C114_single",
    "OpenML.C114_not_of_evaluate"
   ],
   "note": ""
  },
  {
   "property": "C115",
   "status": "proved",
   "theorems": [
    "OpenML.C115_consistent_losses",
    "OpenML.C115_consistent",
    "OpenML.C115_log_losses",
    "OpenML.C115_log_best",
    "OpenML.C115_log_fit"
   ],
   "note": ""
  },
  {
   "property": "C116",
   "status": "proved",
   "theorems": [
    "OpenML.C116_convex",
    "OpenML.C116_minimum",
    "OpenML.C116_shift",
    "OpenML.C116_penalty",
    "OpenML.C116_two_classes"
   ],
   "note": ""
  },
  {
   "property": "C117",
   "status": "proved",
   "theorems": [
    "OpenML.C117_predict",
    "OpenML.C117_fit",
    "OpenML.C117_plusplus",
    "OpenML.C117_plusplus_fit",
    "OpenML.C117_copies"
   ],
   "note": ""
  },
  {
   "property": "C118",
   "status": "proved",
   "theorems": [
    "OpenML.C118_regressor",
    "OpenML.C118_regressor_constant",
    "OpenML.C118_classifier",
    "OpenML.C118_classifier_majority"
   ],
   "note": ""
  },
  {
   "property": "C119",
   "status": "proved",
   "theorems": [
    "OpenML.C119_default",
    "OpenML.C119_gradient",
    "OpenML.C119_coordinate",
    "OpenML.C119_quasi_newton"
   ],
   "note": ""
  },
  {
   "property": "C120",
   "status": "proved",
   "theorems": [
    "OpenML.C120_lasso",
    "OpenML.C120_perceptron",
    "OpenML.C120_softmax",
    "OpenML.C120_logistic",
    "OpenML.C120_truncated_svd"
   ],
   "note": ""
  },
  {
   "property": "C121",
   "status": "proved",
   "theorems": [
    "OpenML.C121_pca",
    "OpenML.C121_truncated_svd"
   ],
   "note": ""
  },
  {
   "property": "C122",
   "status": "proved",
   "theorems": [
    "OpenML.C122_pick",
    "OpenML.C122_first",
    "OpenML.C122_two_clusters"
   ],
   "note": ""
  },
  {
   "property": "C123",
   "status": "proved",
   "theorems": [
    "OpenML.C123_gauss_markov",
    "OpenML.C123_leverages",
    "OpenML.C123_leave_one_out",
    "OpenML.C123_ridge_rows"
   ],
   "note": ""
  },
  {
   "property": "C124",
   "status": "proved",
   "theorems": [
    "OpenML.C124_values",
    "OpenML.C124_components",
    "OpenML.C124_covariance"
   ],
   "note": ""
  },
  {
   "property": "C125",
   "status": "proved",
   "theorems": [
    "OpenML.C125_mse",
    "OpenML.C125_log",
    "OpenML.C125_overlap",
    "OpenML.C125_scores"
   ],
   "note": ""
  },
  {
   "property": "C126",
   "status": "proved",
   "theorems": [
    "OpenML.C126_bound",
    "OpenML.C126_mse",
    "OpenML.C126_logistic",
    "OpenML.C126_mse_rate",
    "OpenML.C126_logistic_rate"
   ],
   "note": ""
  },
  {
   "property": "C127",
   "status": "proved",
   "theorems": [
    "OpenML.C127_fixpoint",
    "OpenML.C127_sparse",
    "OpenML.C127_zero",
    "OpenML.C127_nonzero",
    "OpenML.C127_norm",
    "OpenML.C127_dead_feature"
   ],
   "note": ""
  },
  {
   "property": "C128",
   "status": "proved",
   "theorems": [
    "OpenML.C128_threshold",
    "OpenML.C128_copies",
    "OpenML.C128_order",
    "OpenML.C128_parts",
    "OpenML.C128_added",
    "OpenML.C128_min_confidence",
    "OpenML.C128_antecedent"
   ],
   "note": ""
  },
  {
   "property": "C129",
   "status": "proved",
   "theorems": [
    "OpenML.C129_agree",
    "OpenML.C129_self",
    "OpenML.C129_radius"
   ],
   "note": ""
  },
  {
   "property": "C130",
   "status": "proved",
   "theorems": [
    "OpenML.C130_predict",
    "OpenML.C130_fit",
    "OpenML.C130_means"
   ],
   "note": ""
  },
  {
   "property": "C131",
   "status": "proved",
   "theorems": [
    "OpenML.C131_sum",
    "OpenML.C131_mean",
    "OpenML.C131_predict",
    "OpenML.C131_var",
    "OpenML.C131_distance",
    "OpenML.C131_nearest",
    "OpenML.C131_exact",
    "OpenML.C131_negative_variance",
    "OpenML.C131_factor"
   ],
   "note": ""
  },
  {
   "property": "C132",
   "status": "proved",
   "theorems": [
    "OpenML.C132_loss",
    "OpenML.C132_defined",
    "OpenML.C132_threshold",
    "OpenML.C132_epochs",
    "OpenML.C132_training",
    "OpenML.C132_exact",
    "OpenML.C132_safe"
   ],
   "note": ""
  },
  {
   "property": "C133",
   "status": "proved",
   "theorems": [
    "OpenML.C133_arguments",
    "OpenML.C133_logsumexp",
    "OpenML.C133_softmax",
    "OpenML.C133_sigmoid",
    "OpenML.C133_exact"
   ],
   "note": ""
  },
  {
   "property": "C134",
   "status": "proved",
   "theorems": [
    "OpenML.C134_loss",
    "OpenML.C134_defined",
    "OpenML.C134_rowwise",
    "OpenML.C134_exact"
   ],
   "note": ""
  },
  {
   "property": "C135",
   "status": "proved",
   "theorems": [
    "OpenML.C135_path",
    "OpenML.C135_logistic"
   ],
   "note": ""
  },
  {
   "property": "C136",
   "status": "proved",
   "theorems": [
    "OpenML.C136_greedy"
   ],
   "note": ""
  },
  {
   "property": "C137",
   "status": "proved",
   "theorems": [
    "OpenML.C137_kd_tree",
    "OpenML.C137_same_order"
   ],
   "note": ""
  },
  {
   "property": "C138",
   "status": "proved",
   "theorems": [
    "OpenML.C138_mse",
    "OpenML.C138_logistic",
    "OpenML.C138_decrease",
    "OpenML.C138_rate",
    "OpenML.C138_iterations",
    "OpenML.C138_ends"
   ],
   "note": ""
  },
  {
   "property": "C139",
   "status": "proved",
   "theorems": [
    "OpenML.C139_search",
    "OpenML.C139_converges",
    "OpenML.C139_logistic"
   ],
   "note": ""
  },
  {
   "property": "C140",
   "status": "proved",
   "theorems": [
    "OpenML.C140_class",
    "OpenML.C140_posteriors",
    "OpenML.C140_smoothed",
    "OpenML.C140_constant",
    "OpenML.C140_exact",
    "OpenML.C140_dichotomy",
    "OpenML.C140_negative"
   ],
   "note": ""
  },
  {
   "property": "C141",
   "status": "proved",
   "theorems": [
    "OpenML.C141_tree",
    "OpenML.C141_levels",
    "OpenML.C141_size"
   ],
   "note": ""
  },
  {
   "property": "C142",
   "status": "proved",
   "theorems": [
    "OpenML.C142_classifier",
    "OpenML.C142_regressor",
    "OpenML.C142_range",
    "OpenML.C142_structure",
    "OpenML.C142_adjacent"
   ],
   "note": ""
  },
  {
   "property": "C143",
   "status": "proved",
   "theorems": [
    "OpenML.C143_answers",
    "OpenML.C143_no_object",
    "OpenML.C143_without_copies",
    "OpenML.C143_pass_by_value",
    "OpenML.C143_assign_temporary",
    "OpenML.C143_vector_growth",
    "OpenML.C143_hash_tree",
    "OpenML.C143_classifier",
    "OpenML.C143_regressor"
   ],
   "note": ""
  },
  {
   "property": "C144",
   "status": "proved",
   "theorems": [
    "OpenML.C144_engine",
    "OpenML.C144_clock",
    "OpenML.C144_shuffle_unreachable",
    "OpenML.C144_shuffle_count",
    "OpenML.C144_permutation_unreachable",
    "OpenML.C144_not_uniform",
    "OpenML.C144_split",
    "OpenML.C144_kmeans"
   ],
   "note": ""
  },
  {
   "property": "C145",
   "status": "proved",
   "theorems": [
    "OpenML.C145_sgd_call",
    "OpenML.C145_sag_call",
    "OpenML.C145_tg_call",
    "OpenML.C145_scd_call",
    "OpenML.C145_sgd_history",
    "OpenML.C145_sgd_epochs",
    "OpenML.C145_sgd_retry",
    "OpenML.C145_scd_resume",
    "OpenML.C145_lbfgs"
   ],
   "note": ""
  },
  {
   "property": "C146",
   "status": "proved",
   "theorems": [
    "OpenML.C146_history",
    "OpenML.C146_refit",
    "OpenML.C146_failed_fit",
    "OpenML.C146_copy",
    "OpenML.C146_unfitted",
    "OpenML.C146_unfitted_prob",
    "OpenML.C146_lbfgs_forgets",
    "OpenML.C146_softmax_answers",
    "OpenML.C146_columns"
   ],
   "note": ""
  },
  {
   "property": "C147",
   "status": "proved",
   "theorems": [
    "OpenML.C147_rows",
    "OpenML.C147_reload",
    "OpenML.C147_narrow",
    "OpenML.C147_labels"
   ],
   "note": ""
  },
  {
   "property": "C148",
   "status": "proved",
   "theorems": [
    "OpenML.C148_pca_distances",
    "OpenML.C148_pca_labels",
    "OpenML.C148_pca_guarantee",
    "OpenML.C148_truncated_svd"
   ],
   "note": ""
  },
  {
   "property": "C149",
   "status": "proved",
   "theorems": [
    "OpenML.C149_linear",
    "OpenML.C149_ridge",
    "OpenML.C149_lasso",
    "OpenML.C149_lasso_intercept",
    "OpenML.C149_perceptron",
    "OpenML.C149_logistic",
    "OpenML.C149_softmax"
   ],
   "note": ""
  },
  {
   "property": "C150",
   "status": "proved",
   "theorems": [
    "OpenML.C150_fit",
    "OpenML.C150_program",
    "OpenML.C150_unique",
    "OpenML.C150_torn"
   ],
   "note": ""
  },
  {
   "property": "C151",
   "status": "proved",
   "theorems": [
    "OpenML.C151_total",
    "OpenML.C151_descent",
    "OpenML.C151_linear",
    "OpenML.C151_losses",
    "OpenML.C151_logistic"
   ],
   "note": ""
  },
  {
   "property": "C152",
   "status": "proved",
   "theorems": [
    "OpenML.C152_batch",
    "OpenML.C152_mse",
    "OpenML.C152_log",
    "OpenML.C152_bias",
    "OpenML.C152_holdout"
   ],
   "note": ""
  },
  {
   "property": "C153",
   "status": "proved",
   "theorems": [
    "OpenML.C153_descends",
    "OpenML.C153_rate",
    "OpenML.C153_gradient",
    "OpenML.C153_publishes"
   ],
   "note": ""
  },
  {
   "property": "C154",
   "status": "proved",
   "theorems": [
    "OpenML.C154_sgd",
    "OpenML.C154_sag",
    "OpenML.C154_truncated",
    "OpenML.C154_softmax"
   ],
   "note": ""
  },
  {
   "property": "C155",
   "status": "proved",
   "theorems": [
    "OpenML.C155_agrees",
    "OpenML.C155_program",
    "OpenML.C155_grows",
    "OpenML.C155_repeat",
    "OpenML.C155_stale",
    "OpenML.C155_lines",
    "OpenML.C155_text",
    "OpenML.C155_confidence_above_one"
   ],
   "note": ""
  },
  {
   "property": "C156",
   "status": "proved",
   "theorems": [
    "OpenML.C156_targets",
    "OpenML.C156_linear",
    "OpenML.C156_leave_out",
    "OpenML.C156_replace",
    "OpenML.C156_regularisation",
    "OpenML.C156_attained"
   ],
   "note": ""
  },
  {
   "property": "C157",
   "status": "proved",
   "theorems": [
    "OpenML.C157_metrics",
    "OpenML.C157_moved",
    "OpenML.C157_more_rows",
    "OpenML.C157_radius",
    "OpenML.C157_order"
   ],
   "note": ""
  },
  {
   "property": "C158",
   "status": "proved",
   "theorems": [
    "OpenML.C158_decimals",
    "OpenML.C158_integers",
    "OpenML.C158_carriage_returns",
    "OpenML.C158_commas",
    "OpenML.C158_blank_line",
    "OpenML.C158_out_of_range",
    "OpenML.C158_unsigned_negative",
    "OpenML.C158_string_to_integer",
    "OpenML.C158_texts_exist"
   ],
   "note": ""
  },
  {
   "property": "C159",
   "status": "proved",
   "theorems": [
    "OpenML.C159_rand",
    "OpenML.C159_rand_law",
    "OpenML.C159_randn",
    "OpenML.C159_randint",
    "OpenML.C159_kmeans"
   ],
   "note": ""
  },
  {
   "property": "C160",
   "status": "proved",
   "theorems": [
    "OpenML.C160_affine",
    "OpenML.C160_perceptron",
    "OpenML.C160_logistic",
    "OpenML.C160_softmax",
    "OpenML.C160_kmeans",
    "OpenML.C160_multinomial",
    "OpenML.C160_gaussian",
    "OpenML.C160_gaussian_not_convex",
    "OpenML.C160_classifier",
    "OpenML.C160_regressor"
   ],
   "note": ""
  },
  {
   "property": "C161",
   "status": "proved",
   "theorems": [
    "OpenML.C161_program",
    "OpenML.C161_last_fit",
    "OpenML.C161_unknown",
    "OpenML.C161_no_clusters"
   ],
   "note": ""
  },
  {
   "property": "C162",
   "status": "proved",
   "theorems": [
    "OpenML.C162_gini",
    "OpenML.C162_entropy",
    "OpenML.C162_new_sample",
    "OpenML.C162_regression",
    "OpenML.C162_ridge",
    "OpenML.C162_mse",
    "OpenML.C162_log",
    "OpenML.C162_lbfgs",
    "OpenML.C162_lasso",
    "OpenML.C162_sgd",
    "OpenML.C162_bayes",
    "OpenML.C162_multinomial"
   ],
   "note": ""
  },
  {
   "property": "C163",
   "status": "proved",
   "theorems": [
    "OpenML.C163_gini",
    "OpenML.C163_entropy",
    "OpenML.C163_in_front",
    "OpenML.C163_regressor",
    "OpenML.C163_kmeans",
    "OpenML.C163_gaussian",
    "OpenML.C163_ridge",
    "OpenML.C163_linear"
   ],
   "note": ""
  },
  {
   "property": "C164",
   "status": "proved",
   "theorems": [
    "OpenML.C164_priors",
    "OpenML.C164_unfitted",
    "OpenML.C164_gaussian",
    "OpenML.C164_gaussian_missing",
    "OpenML.C164_multinomial",
    "OpenML.C164_moments",
    "OpenML.C164_multinomial_memory"
   ],
   "note": ""
  },
  {
   "property": "C165",
   "status": "proved",
   "theorems": [
    "OpenML.C165_defined",
    "OpenML.C165_latest",
    "OpenML.C165_precision",
    "OpenML.C165_score",
    "OpenML.C165_density",
    "OpenML.C165_frozen",
    "OpenML.C165_values"
   ],
   "note": ""
  },
  {
   "property": "C166",
   "status": "proved",
   "theorems": [
    "OpenML.C166_probabilities",
    "OpenML.C166_predict",
    "OpenML.C166_outcome",
    "OpenML.C166_unknown",
    "OpenML.C166_unfitted",
    "OpenML.C166_regressor",
    "OpenML.C166_regressor_unknown"
   ],
   "note": ""
  },
  {
   "property": "C167",
   "status": "proved",
   "theorems": [
    "OpenML.C167_replace",
    "OpenML.C167_remove",
    "OpenML.C167_label",
    "OpenML.C167_penalty",
    "OpenML.C167_length",
    "OpenML.C167_probability",
    "OpenML.C167_generalisation",
    "OpenML.C167_rate"
   ],
   "note": ""
  },
  {
   "property": "C168",
   "status": "proved",
   "theorems": [
    "OpenML.C168_defined",
    "OpenML.C168_answers",
    "OpenML.C168_outcome",
    "OpenML.C168_values",
    "OpenML.C168_draws",
    "OpenML.C168_singular",
    "OpenML.C168_unknown_solver"
   ],
   "note": ""
  },
  {
   "property": "C169",
   "status": "proved",
   "theorems": [
    "OpenML.C169_leave_one_out",
    "OpenML.C169_unbiased",
    "OpenML.C169_generalisation"
   ],
   "note": ""
  },
  {
   "property": "C170",
   "status": "proved",
   "theorems": [
    "OpenML.C170_weights",
    "OpenML.C170_predictions",
    "OpenML.C170_descent",
    "OpenML.C170_solvers"
   ],
   "note": ""
  },
  {
   "property": "C171",
   "status": "proved",
   "theorems": [
    "OpenML.C171_variances",
    "OpenML.C171_captured",
    "OpenML.C171_angles",
    "OpenML.C171_direction",
    "OpenML.C171_truncated"
   ],
   "note": ""
  },
  {
   "property": "C172",
   "status": "proved",
   "theorems": [
    "OpenML.C172_runs",
    "OpenML.C172_rates",
    "OpenML.C172_fit",
    "OpenML.C172_generalisation"
   ],
   "note": ""
  },
  {
   "property": "C173",
   "status": "proved",
   "theorems": [
    "OpenML.C173_sums",
    "OpenML.C173_minimum",
    "OpenML.C173_stable",
    "OpenML.C173_two_classes",
    "OpenML.C173_generalisation"
   ],
   "note": ""
  },
  {
   "property": "C174",
   "status": "proved",
   "theorems": [
    "OpenML.C174_training",
    "OpenML.C174_predict"
   ],
   "note": ""
  },
  {
   "property": "C175",
   "status": "proved",
   "theorems": [
    "OpenML.C175_recovers",
    "OpenML.C175_random",
    "OpenML.C175_plusplus"
   ],
   "note": ""
  },
  {
   "property": "C176",
   "status": "proved",
   "theorems": [
    "OpenML.C176_recovers",
    "OpenML.C176_exact"
   ],
   "note": ""
  },
  {
   "property": "C177",
   "status": "proved",
   "theorems": [
    "OpenML.C177_errors"
   ],
   "note": ""
  },
  {
   "property": "C178",
   "status": "proved",
   "theorems": [
    "OpenML.C178_same",
    "OpenML.C178_targets",
    "OpenML.C178_limit",
    "OpenML.C178_logistic"
   ],
   "note": ""
  },
  {
   "property": "C179",
   "status": "proved",
   "theorems": [
    "OpenML.C179_gaussian",
    "OpenML.C179_multinomial",
    "OpenML.C179_priors"
   ],
   "note": ""
  },
  {
   "property": "C180",
   "status": "proved",
   "theorems": [
    "OpenML.C180_holdout",
    "OpenML.C180_choice",
    "OpenML.C180_batch"
   ],
   "note": ""
  },
  {
   "property": "C181",
   "status": "proved",
   "theorems": [
    "OpenML.C181_batch",
    "OpenML.C181_holdout",
    "OpenML.C181_choice"
   ],
   "note": ""
  },
  {
   "property": "C182",
   "status": "proved",
   "theorems": [
    "OpenML.C182_log",
    "OpenML.C182_mse"
   ],
   "note": ""
  },
  {
   "property": "C183",
   "status": "proved",
   "theorems": [
    "OpenML.C183_train",
    "OpenML.C183_test",
    "OpenML.C183_least"
   ],
   "note": ""
  },
  {
   "property": "C184",
   "status": "proved",
   "theorems": [
    "OpenML.C184_groups"
   ],
   "note": ""
  },
  {
   "property": "C185",
   "status": "proved",
   "theorems": [
    "OpenML.C185_exact",
    "OpenML.C185_split",
    "OpenML.C185_batch"
   ],
   "note": ""
  },
  {
   "property": "C186",
   "status": "proved",
   "theorems": [
    "OpenML.C186_gradient"
   ],
   "note": ""
  },
  {
   "property": "C187",
   "status": "proved",
   "theorems": [
    "OpenML.C187_one_of_each",
    "OpenML.C187_groups"
   ],
   "note": ""
  },
  {
   "property": "C188",
   "status": "proved",
   "theorems": [
    "OpenML.C188_priors",
    "OpenML.C188_classes"
   ],
   "note": ""
  },
  {
   "property": "C189",
   "status": "proved",
   "theorems": [
    "OpenML.C189_stays",
    "OpenML.C189_not_found",
    "OpenML.C189_random"
   ],
   "note": ""
  }
 ]
}