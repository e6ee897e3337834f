{
 "claims": [
  {
   "property": "C01",
   "status": "proved",
   "theorems": [
    "DTW.C01_distance_optimal"
   ],
   "note": ""
  },
  {
   "property": "C02",
   "status": "proved",
   "theorems": [
    "DTW.C02_no_path_iff",
    "DTW.C02_distance_never_nan"
   ],
   "note": ""
  },
  {
   "property": "C03",
   "status": "proved",
   "theorems": [
    "DTW.C03_path_realises_distance"
   ],
   "note": ""
  },
  {
   "property": "C04",
   "status": "proved",
   "theorems": [
    "DTW.C04_end_points"
   ],
   "note": ""
  },
  {
   "property": "C05",
   "status": "proved",
   "theorems": [
    "DTW.C05_open_begin_in_range",
    "DTW.C05_open_begin",
    "DTW.C05_monotone_in_range",
    "DTW.C05_bundled_ordered",
    "DTW.C05_unordered_pattern_not_monotone"
   ],
   "note": ""
  },
  {
   "property": "C06",
   "status": "proved",
   "theorems": [
    "DTW.C06_open_begin",
    "DTW.C06_same_rule_sequence"
   ],
   "note": ""
  },
  {
   "property": "C07",
   "status": "proved",
   "theorems": [
    "DTW.C07_C08_open_begin",
    "DTW.C07_C08_recursion"
   ],
   "note": ""
  },
  {
   "property": "C08",
   "status": "proved",
   "theorems": [
    "DTW.C07_C08_open_begin",
    "DTW.C07_C08_recursion",
    "DTW.C08_direction_na"
   ],
   "note": ""
  },
  {
   "property": "C09",
   "status": "proved",
   "theorems": [
    "DTW.C09_nan_iff",
    "DTW.C09_nan_iff_open_begin",
    "DTW.C09_open_begin",
    "DTW.C09_every_cell_optimal"
   ],
   "note": ""
  },
  {
   "property": "C10",
   "status": "proved",
   "theorems": [
    "DTW.C10_outside_is_nan",
    "DTW.C10_open_begin",
    "DTW.C10_window_respected",
    "DTW.C10_intermediate_points_unchecked",
    "DTW.C10_single_step_patterns"
   ],
   "note": ""
  },
  {
   "property": "C11",
   "status": "proved",
   "theorems": [
    "DTW.C11_open_end_succeeds",
    "DTW.C11_open_both_succeeds",
    "DTW.C11_any_ends",
    "DTW.C11_open_begin_succeeds",
    "DTW.C11_larger_window"
   ],
   "note": ""
  },
  {
   "property": "C12",
   "status": "proved",
   "theorems": [
    "DTW.C12_weights_double",
    "DTW.C12_C14_C15_bundled_double",
    "DTW.C12_C14_C15_rabinerJuang_double",
    "DTW.C12_any_ends",
    "DTW.C12_monotone_in_costs",
    "DTW.C12_bundled_weights"
   ],
   "note": ""
  },
  {
   "property": "C13",
   "status": "proved",
   "theorems": [
    "DTW.C13_powers_of_two",
    "DTW.C13_bundled_range",
    "DTW.C13_other_factors",
    "DTW.C13_homogeneous"
   ],
   "note": ""
  },
  {
   "property": "C14",
   "status": "proved",
   "theorems": [
    "DTW.C14_open_begin_matrix",
    "DTW.C12_C14_C15_bundled_double",
    "DTW.C12_C14_C15_rabinerJuang_double",
    "DTW.C14_open_begin",
    "DTW.C14_velichko_negative",
    "DTW.C14_nonnegative"
   ],
   "note": ""
  },
  {
   "property": "C15",
   "status": "proved",
   "theorems": [
    "DTW.C12_C14_C15_bundled_double",
    "DTW.C12_C14_C15_rabinerJuang_double",
    "DTW.C15_double",
    "DTW.C15_self_alignment",
    "DTW.C15_bundled"
   ],
   "note": ""
  },
  {
   "property": "C16",
   "status": "proved",
   "theorems": [
    "DTW.C16_transposed_pattern_wf",
    "DTW.C16_transposition"
   ],
   "note": ""
  },
  {
   "property": "C17",
   "status": "proved",
   "theorems": [
    "DTW.C17_symmetric",
    "DTW.C17_bundled",
    "DTW.C17_asymmetric_not_symmetric"
   ],
   "note": ""
  },
  {
   "property": "C18",
   "status": "proved",
   "theorems": [
    "DTW.C18_normalized_distance",
    "DTW.C18_exact"
   ],
   "note": ""
  },
  {
   "property": "C19",
   "status": "proved",
   "theorems": [
    "DTW.C19_bundled",
    "DTW.C19_rabinerJuang",
    "DTW.C19_mvm",
    "DTW.C19_path_weight",
    "DTW.C19_total_weight",
    "DTW.C19_shift",
    "DTW.C19_constant_cost",
    "DTW.C19_constant_cost_N",
    "DTW.C19_constant_cost_NM",
    "DTW.C19_shift_open_end",
    "DTW.C19_hints",
    "DTW.C19_not_normalizable",
    "DTW.C19_itakura_normalizable"
   ],
   "note": ""
  },
  {
   "property": "C20",
   "status": "proved",
   "theorems": [
    "DTW.C20_open_end_succeeds_any",
    "DTW.C20_open_end_optimal",
    "DTW.C20_C22_double_idempotent",
    "DTW.C20_open_end_best_prefix",
    "DTW.C20_open_end_le_closed_end",
    "DTW.C20_rejects_NA",
    "DTW.C20_open_end_succeeds_iff",
    "DTW.C20_asymmetric_prefix",
    "DTW.C20_rigid_prefix"
   ],
   "note": ""
  },
  {
   "property": "C21",
   "status": "proved",
   "theorems": [
    "DTW.C21_open_begin_prefix",
    "DTW.C21_open_both_is_prefix",
    "DTW.C21_open_end_normalized",
    "DTW.C21_prefix",
    "DTW.C21_open_end_is_closed_prefix"
   ],
   "note": ""
  },
  {
   "property": "C22",
   "status": "proved",
   "theorems": [
    "DTW.C22_open_both_succeeds_iff",
    "DTW.C22_open_both_optimal",
    "DTW.C20_C22_double_idempotent",
    "DTW.C22_open_begin_optimal",
    "DTW.C22_open_begin_succeeds_iff",
    "DTW.C22_open_begin_indices",
    "DTW.C22_bundled",
    "DTW.C22_rejects"
   ],
   "note": ""
  },
  {
   "property": "C23",
   "status": "proved",
   "theorems": [
    "DTW.C23_open_end",
    "DTW.C23_open_begin_le_closed",
    "DTW.C23_bundled",
    "DTW.C23_rigid_counterexample"
   ],
   "note": ""
  },
  {
   "property": "C24",
   "status": "proved",
   "theorems": [
    "DTW.C24_distance_only",
    "DTW.C24_same_numbers",
    "DTW.C24_open_begin_always_fails"
   ],
   "note": ""
  },
  {
   "property": "C25",
   "status": "proved",
   "theorems": [
    "DTW.C25_keep_internals",
    "DTW.C25_added_fields",
    "DTW.C25_series_kept"
   ],
   "note": ""
  },
  {
   "property": "C26",
   "status": "proved",
   "theorems": [
    "DTW.C26_series_as_matrix",
    "DTW.C26_one_dimensional",
    "DTW.C26_dimension_mismatch",
    "DTW.C26_wrong_dimensions"
   ],
   "note": ""
  },
  {
   "property": "C27",
   "status": "proved",
   "theorems": [
    "DTW.C27_asymmetric_exists_doubles",
    "DTW.C27_C43_open_begin",
    "DTW.C27_C43_one_per_query",
    "DTW.C27_asymmetric_matches_once",
    "DTW.C27_asymmetric_exists_iff"
   ],
   "note": ""
  },
  {
   "property": "C28",
   "status": "proved",
   "theorems": [
    "DTW.C28_open_begin",
    "DTW.C28_continuous_curve",
    "DTW.C28_bundled"
   ],
   "note": ""
  },
  {
   "property": "C29",
   "status": "proved",
   "theorems": [
    "DTW.C29_no_undefined_behaviour",
    "DTW.C29_bounds_checked",
    "DTW.C29_overflow_unsafe",
    "DTW.C29_bad_id_exits",
    "DTW.C29_misordered_rules_overflow"
   ],
   "note": ""
  },
  {
   "property": "C30",
   "status": "proved",
   "theorems": [
    "DTW.C30_open_begin",
    "DTW.C30_backtrack_terminates"
   ],
   "note": ""
  },
  {
   "property": "C31",
   "status": "proved",
   "theorems": [
    "DTW.C31_transpose_involution",
    "DTW.C31_transpose_spec",
    "DTW.C31_transpose_rules"
   ],
   "note": ""
  },
  {
   "property": "C32",
   "status": "proved",
   "theorems": [
    "DTW.C32_bundled_wf",
    "DTW.C32_mvm_wf",
    "DTW.C32_rabinerJuang_wf",
    "DTW.C32_C40_rabinerJuang_rejects"
   ],
   "note": ""
  },
  {
   "property": "C33",
   "status": "proved",
   "theorems": [
    "DTW.C33_any_ends",
    "DTW.C33_named_are_rabinerJuang",
    "DTW.C33_typeI",
    "DTW.C33_same_rules",
    "DTW.C33_same_distance"
   ],
   "note": ""
  },
  {
   "property": "C34",
   "status": "proved",
   "theorems": [
    "DTW.C34_any_ends",
    "DTW.C34_rule_order",
    "DTW.C34_permutation"
   ],
   "note": ""
  },
  {
   "property": "C35",
   "status": "proved",
   "theorems": [
    "DTW.C35_open_both",
    "DTW.C35_debug_matrix",
    "DTW.C35_closed",
    "DTW.C35_open_end",
    "DTW.C35_exact",
    "DTW.C35_result_about",
    "DTW.C35_found_path_is_counted",
    "DTW.C35_open_begin",
    "DTW.C35_bundled",
    "DTW.C35_stray_window_args",
    "DTW.C35_velichko_fails",
    "DTW.C35_open_begin_mismatch",
    "DTW.C35_double",
    "DTW.C35_delannoy",
    "DTW.C35_double_error",
    "DTW.C35_overflow",
    "DTW.C35_open_begin_double_error",
    "DTW.C35_double_off_by_one"
   ],
   "note": ""
  },
  {
   "property": "C36",
   "status": "proved",
   "theorems": [
    "DTW.C36_feasible_iff_doubles",
    "DTW.C36_feasible_iff_open_end_doubles",
    "DTW.C36_feasible_iff",
    "DTW.C36_feasible_iff_open_end",
    "DTW.C36_success_counts",
    "DTW.C36_open_begin_success_counts",
    "DTW.C36_open_begin_converse_fails",
    "DTW.C36_open_begin_patterns"
   ],
   "note": ""
  },
  {
   "property": "C37",
   "status": "proved",
   "theorems": [
    "DTW.C37_iff_doubles",
    "DTW.C37_asymmetric_doubles",
    "DTW.C37_C38_free_moves",
    "DTW.C37_cells",
    "DTW.C37_cells_open_begin",
    "DTW.C37_alignment_in_band",
    "DTW.C37_too_narrow_raises",
    "DTW.C37_wide_enough_succeeds",
    "DTW.C37_asymmetric_succeeds"
   ],
   "note": ""
  },
  {
   "property": "C38",
   "status": "proved",
   "theorems": [
    "DTW.C38_itakura_iff_doubles",
    "DTW.C38_slanted_iff_doubles",
    "DTW.C37_C38_free_moves",
    "DTW.C38_itakura_cells",
    "DTW.C38_itakura_excludes_start",
    "DTW.C38_itakura_raises",
    "DTW.C38_itakura_succeeds",
    "DTW.C38_slanted_cells",
    "DTW.C38_slanted_cells_near",
    "DTW.C38_slanted_edge",
    "DTW.C38_slanted_square",
    "DTW.C38_slanted_end",
    "DTW.C38_slanted_raises",
    "DTW.C38_slanted_raises_any",
    "DTW.C38_slanted_succeeds",
    "DTW.C38_slanted_iff",
    "DTW.C38_slanted_fractional_gap"
   ],
   "note": ""
  },
  {
   "property": "C39",
   "status": "proved",
   "theorems": [
    "DTW.C39_trivial_windows"
   ],
   "note": ""
  },
  {
   "property": "C40",
   "status": "proved",
   "theorems": [
    "DTW.C32_C40_rabinerJuang_rejects",
    "DTW.C40_unknown_window",
    "DTW.C40_unknown_window_typeError",
    "DTW.C40_window_args",
    "DTW.C40_unknown_pattern",
    "DTW.C45_unknown_type",
    "DTW.C48_unknown_pattern"
   ],
   "note": ""
  },
  {
   "property": "C41",
   "status": "proved",
   "theorems": [
    "DTW.C41_complete",
    "DTW.C41_means",
    "DTW.C41_between",
    "DTW.C41_of_dtw",
    "DTW.C41_gap_not_interpolated",
    "DTW.C41_gap_not_interpolated_scipy",
    "DTW.C41_open_begin_gap",
    "DTW.C41_distance_only",
    "DTW.C41_double",
    "DTW.C41_double_of_dtw",
    "DTW.C41_C42_double_example"
   ],
   "note": ""
  },
  {
   "property": "C42",
   "status": "proved",
   "theorems": [
    "DTW.C42_area",
    "DTW.C42_zero_iff_diagonal",
    "DTW.C42_every_index_matched",
    "DTW.C42_nonneg",
    "DTW.C42_of_dtw",
    "DTW.C42_doc_example",
    "DTW.C42_open_begin_error",
    "DTW.C42_distance_only",
    "DTW.C42_out_of_range",
    "DTW.C42_double_near",
    "DTW.C42_double_near_of_dtw",
    "DTW.C42_double_near_example",
    "DTW.C42_double",
    "DTW.C42_double_of_dtw",
    "DTW.C41_C42_double_example"
   ],
   "note": ""
  },
  {
   "property": "C43",
   "status": "proved",
   "theorems": [
    "DTW.C27_C43_open_begin",
    "DTW.C27_C43_one_per_query",
    "DTW.C43_mvm",
    "DTW.C43_mvm_wf"
   ],
   "note": ""
  },
  {
   "property": "C44",
   "status": "proved",
   "theorems": [
    "DTW.C44_printed_equation",
    "DTW.C44_cost_matrix_satisfies",
    "DTW.C44_text",
    "DTW.C44_text_exact",
    "DTW.C44_text_determines",
    "DTW.C44_text_bundled",
    "DTW.C44_text_ambiguous"
   ],
   "note": ""
  },
  {
   "property": "C45",
   "status": "proved",
   "theorems": [
    "DTW.C45_unknown_type",
    "DTW.C45_alignment",
    "DTW.C45_distance_only",
    "DTW.C45_twoway",
    "DTW.C45_threeway",
    "DTW.C45_series_required",
    "DTW.C45_twoway_rejects_vectors",
    "DTW.C45_density",
    "DTW.C45_density_at_end",
    "DTW.C45_density_errors",
    "DTW.C45_pattern_plot",
    "DTW.C45_twoway_given",
    "DTW.C45_bad_position",
    "DTW.C45_twoway_multivariate",
    "DTW.C45_which_series",
    "DTW.C45_threeway_given",
    "DTW.C45_threeway_vectors",
    "DTW.C45_pattern_labels"
   ],
   "note": ""
  },
  {
   "property": "C46",
   "status": "proved",
   "theorems": [
    "DTW.C46_inputs_unchanged",
    "DTW.C46_function_of_values",
    "DTW.C46_history_independent",
    "DTW.C46_calls_independent",
    "DTW.C46_results_stable",
    "DTW.C46_sharing",
    "DTW.C46_own_arrays_free",
    "DTW.C46_session",
    "DTW.C46_default_dict_leaks",
    "DTW.C46_pattern_object_leaks",
    "DTW.C46_alias_leaks",
    "DTW.C46_own_arrays_distinct",
    "DTW.C46_attributes_separate"
   ],
   "note": ""
  },
  {
   "property": "C47",
   "status": "proved",
   "theorems": [
    "DTW.C47_layout",
    "DTW.C47_accepted_iff",
    "DTW.C47_contiguous_accepted",
    "DTW.C47_rejected",
    "DTW.C47_accepted_strides",
    "DTW.C47_flags",
    "DTW.C47_accepted_thin",
    "DTW.C47_two_series"
   ],
   "note": ""
  },
  {
   "property": "C48",
   "status": "proved",
   "theorems": [
    "DTW.C48_reports",
    "DTW.C48_prints_optimum",
    "DTW.C48_unknown_pattern",
    "DTW.C48_file_shapes",
    "DTW.C48_single_number",
    "DTW.C48_command_line",
    "DTW.C48_any_order",
    "DTW.C48_separator",
    "DTW.C48_version_help",
    "DTW.C48_unknown_option",
    "DTW.C48_ambiguous",
    "DTW.C48_missing_value",
    "DTW.C48_superfluous_value",
    "DTW.C48_help_cluster",
    "DTW.C48_layout",
    "DTW.C48_output"
   ],
   "note": ""
  },
  {
   "property": "C49",
   "status": "proved",
   "theorems": [
    "DTW.C49_any_ends",
    "DTW.C49_nearest",
    "DTW.C49_ties_to_even",
    "DTW.C49_binary64_relerr",
    "DTW.C49_rounding_error",
    "DTW.C49_bundled",
    "DTW.C49_rabinerJuang",
    "DTW.C49_double_accuracy",
    "DTW.C49_ieee_add",
    "DTW.C49_ieee_mul",
    "DTW.C49_ieee_div"
   ],
   "note": ""
  },
  {
   "property": "C50",
   "status": "proved",
   "theorems": [
    "DTW.C50_binary64_integers",
    "DTW.C50_integer_costs_exact",
    "DTW.C50_binary64_quotients",
    "DTW.C50_bundled",
    "DTW.C50_mvm",
    "DTW.C50_sharp",
    "DTW.C50_doubles",
    "DTW.C50_open_end_tie"
   ],
   "note": ""
  },
  {
   "property": "C51",
   "status": "proved",
   "theorems": [
    "DTW.C51_slopes",
    "DTW.C51_parallelogram",
    "DTW.C51_out_of_bounds_raises",
    "DTW.C51_exists_iff",
    "DTW.C51_bundled",
    "DTW.C51_bundled_rest",
    "DTW.C51_unrestricted_exists",
    "DTW.C51_mvm",
    "DTW.C51_mvm_exists_iff",
    "DTW.C51_open_end_iff",
    "DTW.C51_open_begin_iff",
    "DTW.C51_open_unrestricted",
    "DTW.C51_mvm_open"
   ],
   "note": ""
  },
  {
   "property": "C52",
   "status": "proved",
   "theorems": [
    "DTW.C52_table",
    "DTW.C52_builder",
    "DTW.C52_smoothing_keeps_total",
    "DTW.C52_unbiased"
   ],
   "note": ""
  },
  {
   "property": "C53",
   "status": "proved",
   "theorems": [
    "DTW.C53_named",
    "DTW.C53_named_complete",
    "DTW.C53_mori2006",
    "DTW.C53_rabinerJuang",
    "DTW.C53_symmetric1",
    "DTW.C53_symmetric2",
    "DTW.C53_asymmetricP0",
    "DTW.C53_symmetricP1",
    "DTW.C53_symmetricP05",
    "DTW.C53_symmetricP2",
    "DTW.C53_asymmetric",
    "DTW.C53_mvm",
    "DTW.C53_rigid",
    "DTW.C53_doubles"
   ],
   "note": ""
  },
  {
   "property": "C54",
   "status": "proved",
   "theorems": [
    "DTW.C54_zero_of_zero_curve",
    "DTW.C54_zero_curve_of_zero",
    "DTW.C54_stretched_copy",
    "DTW.C54_zero_curve_of_zero_rounded",
    "DTW.C54_zero_iff_doubles",
    "DTW.C54_open_begin",
    "DTW.C54_open_begin_doubles",
    "DTW.C54_rigid_occurs",
    "DTW.C54_open_end_underflow"
   ],
   "note": ""
  },
  {
   "property": "C55",
   "status": "proved",
   "theorems": [
    "DTW.C55_row_bound",
    "DTW.C55_row_bound_fn",
    "DTW.C55_corner_bound",
    "DTW.C55_diagonal_bound",
    "DTW.C55_row_bound_rounded",
    "DTW.C55_open_begin_rounded",
    "DTW.C55_charges_arrival",
    "DTW.C55_pruning_is_safe",
    "DTW.C55_diagonal_bound_rounded",
    "DTW.C55_open_begin_row_bound"
   ],
   "note": ""
  },
  {
   "property": "C56",
   "status": "proved",
   "theorems": [
    "DTW.C56_time_reversal",
    "DTW.C56_time_reversal_fn",
    "DTW.C56_fn_patterns",
    "DTW.C56_symmetric2_not_reversible",
    "DTW.C56_reversal_open",
    "DTW.C56_reversal_open_both",
    "DTW.C56_reversal_series",
    "DTW.C56_reversal_example",
    "DTW.C56_rigid_not_exchanged",
    "DTW.C56_doubles",
    "DTW.C56_doubles_fn"
   ],
   "note": ""
  },
  {
   "property": "C57",
   "status": "proved",
   "theorems": [
    "DTW.C57_concatenation",
    "DTW.C57_diagonal_weights",
    "DTW.C57_not_a_metric",
    "DTW.C57_doubles"
   ],
   "note": ""
  },
  {
   "property": "C58",
   "status": "proved",
   "theorems": [
    "DTW.C58_distance_usable",
    "DTW.C58_path_avoids",
    "DTW.C58_mask_is_window",
    "DTW.C58_mask_is_window_open",
    "DTW.C58_bundled",
    "DTW.C58_mvm",
    "DTW.C58_uncharged_cell_visited",
    "DTW.C58_nan_sample"
   ],
   "note": ""
  },
  {
   "property": "C59",
   "status": "proved",
   "theorems": [
    "DTW.C59_any_arithmetic",
    "DTW.C59_any_arithmetic_succeeds_iff",
    "DTW.C59_asymmetric",
    "DTW.C59_mvm",
    "DTW.C59_rigid",
    "DTW.C59_rigid_misses_offset_zero"
   ],
   "note": ""
  },
  {
   "property": "C60",
   "status": "proved",
   "theorems": [
    "DTW.C60_matching_shape",
    "DTW.C60_elementwise",
    "DTW.C60_disagreement",
    "DTW.C60_rejected",
    "DTW.C60_too_large",
    "DTW.C60_same_size_is_reshape",
    "DTW.C60_too_small",
    "DTW.C60_fractions",
    "DTW.C60_reshape_witness"
   ],
   "note": ""
  },
  {
   "property": "C61",
   "status": "proved",
   "theorems": [
    "DTW.C61_at_most",
    "DTW.C61_steps",
    "DTW.C61_at_least",
    "DTW.C61_open_begin",
    "DTW.C61_bundled",
    "DTW.C61_rabinerJuang",
    "DTW.C61_repr",
    "DTW.C61_witness",
    "DTW.C61_not_strict"
   ],
   "note": ""
  },
  {
   "property": "C62",
   "status": "proved",
   "theorems": [
    "DTW.C62_relative",
    "DTW.C62_stable",
    "DTW.C62_bundled",
    "DTW.C62_normalized",
    "DTW.C62_open_begin",
    "DTW.C62_existence"
   ],
   "note": ""
  },
  {
   "property": "C63",
   "status": "proved",
   "theorems": [
    "DTW.C63_translation",
    "DTW.C63_scaling",
    "DTW.C63_symmetry",
    "DTW.C63_identity",
    "DTW.C63_reversal",
    "DTW.C63_zero_iff",
    "DTW.C63_lb_keogh",
    "DTW.C63_corners",
    "DTW.C63_extremes",
    "DTW.C63_lock_step",
    "DTW.C63_noise"
   ],
   "note": ""
  },
  {
   "property": "C64",
   "status": "proved",
   "theorems": [
    "DTW.C66_C64_unreadable",
    "DTW.C64_numbers",
    "DTW.C64_round_trip",
    "DTW.C64_python_text",
    "DTW.C64_sixteen_digits",
    "DTW.C64_only_numerals",
    "DTW.C64_layout",
    "DTW.C64_saved_table",
    "DTW.C64_script",
    "DTW.C64_unreadable",
    "DTW.C64_underscores"
   ],
   "note": ""
  },
  {
   "property": "C65",
   "status": "proved",
   "theorems": [
    "DTW.C65_selftest",
    "DTW.C65_empty",
    "DTW.C65_is_symmetric1"
   ],
   "note": ""
  },
  {
   "property": "C66",
   "status": "proved",
   "theorems": [
    "DTW.C66_chebyshev_exact",
    "DTW.C66_sqeuclidean_accuracy",
    "DTW.C66_cityblock_accuracy",
    "DTW.C66_cityblock_end_to_end",
    "DTW.C66_sqeuclidean_end_to_end",
    "DTW.C66_chebyshev_end_to_end",
    "DTW.C66_default_end_to_end",
    "DTW.C66_euclidean_end_to_end",
    "DTW.C66_sqrt",
    "DTW.C66_one_column",
    "DTW.C66_cityblock_one_column",
    "DTW.C66_chebyshev_one_column",
    "DTW.C66_overflow",
    "DTW.C66_underflow",
    "DTW.C66_default_is_cityblock",
    "DTW.C66_exact_differences",
    "DTW.C66_whole_numbers",
    "DTW.C66_overflow_fails",
    "DTW.C66_symmetric",
    "DTW.C66_self",
    "DTW.C66_nan",
    "DTW.C66_chebyshev_skips_nan",
    "DTW.C66_accuracy",
    "DTW.C66_whole_numbers_exact",
    "DTW.C66_C64_unreadable",
    "DTW.C66_not_definite",
    "DTW.C66_chebyshev_ignores_nan",
    "DTW.C66_series_symmetry",
    "DTW.C66_series_self",
    "DTW.C66_names"
   ],
   "note": ""
  },
  {
   "property": "C67",
   "status": "proved",
   "theorems": [
    "DTW.C67_stored",
    "DTW.C67_weights",
    "DTW.C67_bundled",
    "DTW.C67_countPaths",
    "DTW.C67_print",
    "DTW.C67_rounded_marker"
   ],
   "note": ""
  },
  {
   "property": "C68",
   "status": "proved",
   "theorems": [
    "DTW.C68_prefix",
    "DTW.C68_prefix_open_begin",
    "DTW.C68_suffix"
   ],
   "note": ""
  },
  {
   "property": "C69",
   "status": "proved",
   "theorems": [
    "DTW.C69_along_path",
    "DTW.C69_row_bound",
    "DTW.C69_column_bound",
    "DTW.C69_abandon",
    "DTW.C69_bundled",
    "DTW.C69_row_bound_open_begin"
   ],
   "note": ""
  },
  {
   "property": "C70",
   "status": "proved",
   "theorems": [
    "DTW.C70_constant_feature",
    "DTW.C70_more_features",
    "DTW.C70_permuted_features",
    "DTW.C70_chebyshev_order",
    "DTW.C70_translated_features",
    "DTW.C70_two_features",
    "DTW.C70_order_matters"
   ],
   "note": ""
  },
  {
   "property": "C71",
   "status": "proved",
   "theorems": [
    "DTW.C71_any_schedule",
    "DTW.C71_finishes",
    "DTW.C71_interrupted",
    "DTW.C71_retry",
    "DTW.C71_results_disjoint",
    "DTW.C71_race_matters"
   ],
   "note": ""
  },
  {
   "property": "C72",
   "status": "proved",
   "theorems": [
    "DTW.C72_attributes",
    "DTW.C72_once",
    "DTW.C72_star",
    "DTW.C72_from_import",
    "DTW.C72_import_as",
    "DTW.C72_import_plain",
    "DTW.C72_pattern_names",
    "DTW.C72_alias",
    "DTW.C72_unknown_module",
    "DTW.C72_no_nested_module",
    "DTW.C72_unknown_name",
    "DTW.C72_known_name"
   ],
   "note": ""
  },
  {
   "property": "C73",
   "status": "proved",
   "theorems": [
    "DTW.C73_timestamps",
    "DTW.C73_not_exact",
    "DTW.C73_table",
    "DTW.C73_aami",
    "DTW.C73_abscissae",
    "DTW.C73_equally_spaced",
    "DTW.C73_sin_cos",
    "DTW.C73_quick_start"
   ],
   "note": ""
  },
  {
   "property": "C74",
   "status": "proved",
   "theorems": [
    "DTW.C74_open_end",
    "DTW.C74_open_begin",
    "DTW.C74_open_unrestricted",
    "DTW.C74_mvm",
    "DTW.C74_success",
    "DTW.C74_finite",
    "DTW.C74_bundled",
    "DTW.C74_slope",
    "DTW.C74_unrestricted",
    "DTW.C74_series",
    "DTW.C74_default_call"
   ],
   "note": ""
  },
  {
   "property": "C75",
   "status": "proved",
   "theorems": [
    "DTW.C75_scaling",
    "DTW.C75_zero_iff",
    "DTW.C75_lb_keogh",
    "DTW.C75_lock_step",
    "DTW.C75_translation"
   ],
   "note": ""
  },
  {
   "property": "C76",
   "status": "proved",
   "theorems": [
    "DTW.C76_closed",
    "DTW.C76_open_end",
    "DTW.C76_search",
    "DTW.C76_patterns",
    "DTW.C76_repetitions",
    "DTW.C76_boxes"
   ],
   "note": ""
  },
  {
   "property": "C77",
   "status": "proved",
   "theorems": [
    "DTW.C77_kept",
    "DTW.C77_kept_open_begin",
    "DTW.C77_ties",
    "DTW.C77_ties_open_begin",
    "DTW.C77_same_optima",
    "DTW.C77_band"
   ],
   "note": ""
  },
  {
   "property": "C78",
   "status": "proved",
   "theorems": [
    "DTW.C78_existence",
    "DTW.C78_distance",
    "DTW.C78_normalized",
    "DTW.C78_agreement",
    "DTW.C78_columns",
    "DTW.C78_not_euclidean",
    "DTW.C78_doubles"
   ],
   "note": ""
  },
  {
   "property": "C79",
   "status": "proved",
   "theorems": [
    "DTW.C79_closed",
    "DTW.C79_open_end",
    "DTW.C79_open_begin",
    "DTW.C79_bundled",
    "DTW.C79_mvm"
   ],
   "note": ""
  },
  {
   "property": "C80",
   "status": "proved",
   "theorems": [
    "DTW.C80_line",
    "DTW.C80_lockstep",
    "DTW.C80_single_query",
    "DTW.C80_single_reference",
    "DTW.C80_lockstep_exact",
    "DTW.C80_series"
   ],
   "note": ""
  },
  {
   "property": "C81",
   "status": "proved",
   "theorems": [
    "DTW.C81_longer_no_worse",
    "DTW.C81_cut_out",
    "DTW.C81_appended",
    "DTW.C81_first_step",
    "DTW.C81_first_step_patterns",
    "DTW.C81_series",
    "DTW.C81_rigid_boundary"
   ],
   "note": ""
  },
  {
   "property": "C82",
   "status": "proved",
   "theorems": [
    "DTW.C82_distance",
    "DTW.C82_mean_N",
    "DTW.C82_mean_NM",
    "DTW.C82_mean_open_begin",
    "DTW.C82_bundled",
    "DTW.C82_example",
    "DTW.C82_not_in_doubles"
   ],
   "note": ""
  },
  {
   "property": "C83",
   "status": "proved",
   "theorems": [
    "DTW.C83_factor",
    "DTW.C83_rabinerJuang",
    "DTW.C83_bundled",
    "DTW.C83_symmetric",
    "DTW.C83_sharp"
   ],
   "note": ""
  },
  {
   "property": "C84",
   "status": "proved",
   "theorems": [
    "DTW.C84_outliers",
    "DTW.C84_any_ends",
    "DTW.C84_shares",
    "DTW.C84_mvm",
    "DTW.C84_series",
    "DTW.C84_symmetric2_counts_repeatedly"
   ],
   "note": ""
  },
  {
   "property": "C85",
   "status": "proved",
   "theorems": [
    "DTW.C85_winner",
    "DTW.C85_winner_outliers",
    "DTW.C85_any_ends",
    "DTW.C85_strays",
    "DTW.C85_noisy_copy"
   ],
   "note": ""
  },
  {
   "property": "C86",
   "status": "proved",
   "theorems": [
    "DTW.C86_hold",
    "DTW.C86_patterns",
    "DTW.C86_series",
    "DTW.C86_uniform",
    "DTW.C86_attained"
   ],
   "note": ""
  },
  {
   "property": "C87",
   "status": "proved",
   "theorems": [
    "DTW.C87_machine",
    "DTW.C87_signs_do_not_matter",
    "DTW.C87_only_zeros_and_nans",
    "DTW.C87_every_double",
    "DTW.C87_bits"
   ],
   "note": ""
  },
  {
   "property": "C88",
   "status": "proved",
   "theorems": [
    "DTW.C88_rounding",
    "DTW.C88_any_ends",
    "DTW.C88_noise_and_rounding",
    "DTW.C88_noisy_copy",
    "DTW.C88_noise",
    "DTW.C88_factor",
    "DTW.C88_hold",
    "DTW.C88_rigid_search"
   ],
   "note": ""
  },
  {
   "property": "C89",
   "status": "proved",
   "theorems": [
    "DTW.C89_matched",
    "DTW.C89_each",
    "DTW.C89_total",
    "DTW.C89_total_doubles",
    "DTW.C89_exact_copy",
    "DTW.C89_stretched",
    "DTW.C89_one_per_query",
    "DTW.C89_bundled",
    "DTW.C89_example",
    "DTW.C89_one_per_query_example"
   ],
   "note": ""
  },
  {
   "property": "C90",
   "status": "proved",
   "theorems": [
    "DTW.C90_symmetric1",
    "DTW.C90_symmetric1_flat_query",
    "DTW.C90_symmetric2",
    "DTW.C90_symmetric2_flat_query",
    "DTW.C90_function",
    "DTW.C90_asymmetricP0",
    "DTW.C90_doubles",
    "DTW.C90_series",
    "DTW.C90_series_asymmetric"
   ],
   "note": ""
  },
  {
   "property": "C91",
   "status": "proved",
   "theorems": [
    "DTW.C91_rows",
    "DTW.C91_fields",
    "DTW.C91_cost_matrix",
    "DTW.C91_columns",
    "DTW.C91_squares",
    "DTW.C91_flat_reference",
    "DTW.C91_doubles",
    "DTW.C91_flat_doubles",
    "DTW.C91_bundled",
    "DTW.C91_mvm"
   ],
   "note": ""
  },
  {
   "property": "C92",
   "status": "proved",
   "theorems": [
    "DTW.C92_squares",
    "DTW.C92_squares_normalized",
    "DTW.C92_squares_open_begin",
    "DTW.C92_squares_upper",
    "DTW.C92_metrics",
    "DTW.C92_bundled"
   ],
   "note": ""
  },
  {
   "property": "C93",
   "status": "proved",
   "theorems": [
    "DTW.C93_doubles",
    "DTW.C93_exact",
    "DTW.C93_maps"
   ],
   "note": ""
  },
  {
   "property": "C94",
   "status": "proved",
   "theorems": [
    "DTW.C94_distance",
    "DTW.C94_reestimate",
    "DTW.C94_mean",
    "DTW.C94_descent",
    "DTW.C94_plain",
    "DTW.C94_mean_plain",
    "DTW.C94_median",
    "DTW.C94_series",
    "DTW.C94_bundled",
    "DTW.C94_plain_not_symmetric2"
   ],
   "note": ""
  },
  {
   "property": "C95",
   "status": "proved",
   "theorems": [
    "DTW.C95_through",
    "DTW.C95_impossible",
    "DTW.C95_on_optimal",
    "DTW.C95_halves",
    "DTW.C95_bundled",
    "DTW.C95_doubles",
    "DTW.C95_halves_doubles"
   ],
   "note": ""
  },
  {
   "property": "C96",
   "status": "proved",
   "theorems": [
    "DTW.C96_same_answer",
    "DTW.C96_bundled",
    "DTW.C96_unit",
    "DTW.C96_binary",
    "DTW.C96_close",
    "DTW.C96_not_every_pattern"
   ],
   "note": ""
  },
  {
   "property": "C97",
   "status": "proved",
   "theorems": [
    "DTW.C97_compare",
    "DTW.C97_order",
    "DTW.C97_disjoint",
    "DTW.C97_room",
    "DTW.C97_terminates",
    "DTW.C97_room_rigid",
    "DTW.C97_best_left",
    "DTW.C97_complete",
    "DTW.C97_bundled"
   ],
   "note": ""
  },
  {
   "property": "C98",
   "status": "proved",
   "theorems": [
    "DTW.C98_rotations",
    "DTW.C98_which",
    "DTW.C98_doubles",
    "DTW.C98_series",
    "DTW.C98_invariant",
    "DTW.C98_symmetric",
    "DTW.C98_triangle",
    "DTW.C98_zero"
   ],
   "note": ""
  }
 ]
}