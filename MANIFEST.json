{
 "claims": [
  {
   "property": "C01",
   "status": "proved",
   "theorems": [
    "Teacher.C01_membership",
    "Teacher.C01_unsorted_fails",
    "Teacher.C01_string_fails",
    "Teacher.C01_point_set"
   ],
   "note": ""
  },
  {
   "property": "C02",
   "status": "proved",
   "theorems": [
    "Teacher.C02_strong_partition",
    "Teacher.C02_single_peak"
   ],
   "note": ""
  },
  {
   "property": "C03",
   "status": "proved",
   "theorems": [
    "Teacher.C03_two_neighbours"
   ],
   "note": ""
  },
  {
   "property": "C04",
   "status": "proved",
   "theorems": [
    "Teacher.C04_alpha_cut_level",
    "Teacher.C04_alpha_cut_zero",
    "Teacher.C04_alpha_cut_nested",
    "Teacher.C04_alpha_cut_error"
   ],
   "note": ""
  },
  {
   "property": "C05",
   "status": "proved",
   "theorems": [
    "Teacher.C05_intersection_sup_min",
    "Teacher.C05_intersection_range",
    "Teacher.C05_intersection_types"
   ],
   "note": ""
  },
  {
   "property": "C06",
   "status": "partial",
   "theorems": [
    "Teacher.C06_simmilarity_partial",
    "Teacher.C06_simmilarity_ignores_position",
    "Teacher.C06_simmilarity_false",
    "Teacher.C06_simmilarity_discrete"
   ],
   "note": "False of the code: simmilarity compares half-widths (not the alpha-cut intervals), so a symmetric triangle is 0-similar to itself, values can be negative and position is ignored (C06_simmilarity_false). Proved: symmetry, upper bound 1, range and self-similarity exactly when the left half-width is smaller than the right one."
  },
  {
   "property": "C07",
   "status": "proved",
   "theorems": [
    "Teacher.C07_jaccard"
   ],
   "note": ""
  },
  {
   "property": "C08",
   "status": "proved",
   "theorems": [
    "Teacher.C08_merge",
    "Teacher.C08_merge_self"
   ],
   "note": ""
  },
  {
   "property": "C09",
   "status": "proved",
   "theorems": [
    "Teacher.C09_crisp_partition"
   ],
   "note": ""
  },
  {
   "property": "C10",
   "status": "proved",
   "theorems": [
    "Teacher.C10_positions",
    "Teacher.C10_missing_name",
    "Teacher.C10_bad_position"
   ],
   "note": ""
  },
  {
   "property": "C11",
   "status": "proved",
   "theorems": [
    "Teacher.C11_cellwise",
    "Teacher.C11_succeeds",
    "Teacher.C11_row",
    "Teacher.C11_degrees"
   ],
   "note": ""
  },
  {
   "property": "C12",
   "status": "proved",
   "theorems": [
    "Teacher.C12_entropy_points",
    "Teacher.C12_too_short",
    "Teacher.C12_terminates"
   ],
   "note": ""
  },
  {
   "property": "C13",
   "status": "partial",
   "theorems": [
    "Teacher.C13_covers_partial",
    "Teacher.C13_sums_to_one_partial",
    "Teacher.C13_maximum_lost_false",
    "Teacher.C13_lost_value_false"
   ],
   "note": "False of the code: when the maximum of the column ends up alone in a branch it is lost (C13_maximum_lost_false, C13_lost_value_false exhibit a column). Proved under the extra condition that the last point is the maximum."
  },
  {
   "property": "C14",
   "status": "proved",
   "theorems": [
    "Teacher.C14_max_depth"
   ],
   "note": ""
  },
  {
   "property": "C15",
   "status": "proved",
   "theorems": [
    "Teacher.C15_arguments_of_log",
    "Teacher.C15_bounds",
    "Teacher.C15_zero_iff",
    "Teacher.C15_weighted_bounds"
   ],
   "note": ""
  },
  {
   "property": "C16",
   "status": "partial",
   "theorems": [
    "Teacher.C16_equal_width",
    "Teacher.C16_equal_width_exact",
    "Teacher.C16_quantiles",
    "Teacher.C16_equal_freq_partial",
    "Teacher.C16_repeated_quantile_false",
    "Teacher.C16_not_strong_false"
   ],
   "note": "equal_width proved for every column with two different values; equal_freq proved when no quantile is repeated and false otherwise (C16_repeated_quantile_false, C16_not_strong_false). The rounding pandas applies to the edges is a parameter with hypothesis GoodRounding."
  },
  {
   "property": "C17",
   "status": "proved",
   "theorems": [
    "Teacher.C17_matching",
    "Teacher.C17_range",
    "Teacher.C17_matching_multi"
   ],
   "note": ""
  },
  {
   "property": "C18",
   "status": "proved",
   "theorems": [
    "Teacher.C18_order_independent",
    "Teacher.C18_more_conditions"
   ],
   "note": ""
  },
  {
   "property": "C19",
   "status": "proved",
   "theorems": [
    "Teacher.C19_simplify",
    "Teacher.C19_idempotent",
    "Teacher.C19_same_matching"
   ],
   "note": ""
  },
  {
   "property": "C20",
   "status": "proved",
   "theorems": [
    "Teacher.C20_weighted_vote",
    "Teacher.C20_errors"
   ],
   "note": ""
  },
  {
   "property": "C21",
   "status": "proved",
   "theorems": [
    "Teacher.C21_order_independent",
    "Teacher.C21_scale_invariant"
   ],
   "note": ""
  },
  {
   "property": "C22",
   "status": "proved",
   "theorems": [
    "Teacher.C22_to_crisp",
    "Teacher.C22_errors"
   ],
   "note": ""
  },
  {
   "property": "C23",
   "status": "proved",
   "theorems": [
    "Teacher.C23_map_variables",
    "Teacher.C23_succeeds",
    "Teacher.C23_errors"
   ],
   "note": ""
  },
  {
   "property": "C24",
   "status": "partial",
   "theorems": [
    "Teacher.C24_identity_partial",
    "Teacher.C24_generated_separated",
    "Teacher.C24_simmilarity_false"
   ],
   "note": "Proved for intersection, on any variables whose sets are separated, and the generated partitions are (C24_generated_separated). False of the code for simmilarity: with peaks 0,1,2 the middle set has simmilarity 0 with itself and the rule x is 1 becomes x is 0 (C24_simmilarity_false)."
  },
  {
   "property": "C25",
   "status": "partial",
   "theorems": [
    "Teacher.C25_equality_partial",
    "Teacher.C25_hash_false"
   ],
   "note": "equivalence and hash compatibility proved for all rules; false in full: a rule with several sets per condition (FBDT) has no hash (C25_hash_false)"
  },
  {
   "property": "C26",
   "status": "proved",
   "theorems": [
    "Teacher.C26_fbdt_row_wise",
    "Teacher.C26_row_wise"
   ],
   "note": ""
  },
  {
   "property": "C27",
   "status": "proved",
   "theorems": [
    "Teacher.C27_fbdt_max_vote",
    "Teacher.C27_fbdt_predicts",
    "Teacher.C27_fbdt_fitted_total",
    "Teacher.C27_fitted_total",
    "Teacher.C27_max_vote",
    "Teacher.C27_predicts"
   ],
   "note": ""
  },
  {
   "property": "C28",
   "status": "proved",
   "theorems": [
    "Teacher.C28_fitted",
    "Teacher.C28_same_votes",
    "Teacher.C28_same_class"
   ],
   "note": ""
  },
  {
   "property": "C29",
   "status": "partial",
   "theorems": [
    "Teacher.C29_fbdt_fitted_false",
    "Teacher.C29_fdt_fitted_false",
    "Teacher.C29_fdt_verbose_false"
   ],
   "note": "False of FDT (C29_fdt_verbose_false, C29_fdt_fitted_false) and of every fitted FBDT (C29_fbdt_fitted_false): the flag is passed by position as the weight threshold, so verbose=True returns no rules."
  },
  {
   "property": "C30",
   "status": "proved",
   "theorems": [
    "Teacher.C30_leaf_distributions",
    "Teacher.C30_leaf_shares"
   ],
   "note": ""
  },
  {
   "property": "C31",
   "status": "proved",
   "theorems": [
    "Teacher.C31_depth_and_features",
    "Teacher.C31_children"
   ],
   "note": ""
  },
  {
   "property": "C32",
   "status": "proved",
   "theorems": [
    "Teacher.C32_fit_succeeds",
    "Teacher.C32_threshold_zero_fails",
    "Teacher.C32_terminates"
   ],
   "note": ""
  },
  {
   "property": "C33",
   "status": "partial",
   "theorems": [
    "Teacher.C33_refit_partial",
    "Teacher.C33_refit_false"
   ],
   "note": "False of the code: a second fit appends its children to those of the first (C33_refit_false). C33_refit_partial characterises the refitted tree exactly."
  },
  {
   "property": "C34",
   "status": "proved",
   "theorems": [
    "Teacher.C34_fbdt_first_class",
    "Teacher.C34_fbdt_smallest_class",
    "Teacher.C34_smallest_class",
    "Teacher.C34_first_class"
   ],
   "note": ""
  },
  {
   "property": "C35",
   "status": "proved",
   "theorems": [
    "Teacher.C35_fitted",
    "Teacher.C35_one_leaf",
    "Teacher.C35_prediction"
   ],
   "note": ""
  },
  {
   "property": "C36",
   "status": "partial",
   "theorems": [
    "Teacher.C36_trained_sets_partial",
    "Teacher.C36_repeated_names_false"
   ],
   "note": "Holds for unique set names (C36_trained_sets_partial); false with repeated names (C36_repeated_names_false)."
  },
  {
   "property": "C37",
   "status": "proved",
   "theorems": [
    "Teacher.C37_bipartition",
    "Teacher.C37_all_cuts",
    "Teacher.C37_count",
    "Teacher.C37_categorical"
   ],
   "note": "For a discrete feature one of whose sets has no training example (share 0/0 = nan) the order of the sets is the arbitrary permutation that sort leaves (NanSort); the candidates are still bipartitions."
  },
  {
   "property": "C38",
   "status": "proved",
   "theorems": [
    "Teacher.C38_leaf_distributions",
    "Teacher.C38_depth",
    "Teacher.C38_two_children",
    "Teacher.C38_fit_succeeds",
    "Teacher.C38_terminates"
   ],
   "note": ""
  },
  {
   "property": "C39",
   "status": "proved",
   "theorems": [
    "Teacher.C39_simplify"
   ],
   "note": "Set names distinct within each variable. Also states that the simplified rule mentions each variable once and only clauses of the original."
  },
  {
   "property": "C40",
   "status": "proved",
   "theorems": [
    "Teacher.C40_same_votes",
    "Teacher.C40_hypothesis_continuous",
    "Teacher.C40_hypothesis_discrete",
    "Teacher.C40_overlap_false"
   ],
   "note": "Degrees of each variable add up to at most 1 (discharged for get_fuzzy_variables output by C40_hypothesis_continuous/_discrete); C40_overlap_false shows that the votes differ without it. Both simplify settings; when one class is strictly best the two predictions agree."
  },
  {
   "property": "C41",
   "status": "proved",
   "theorems": [
    "Teacher.C41_independent"
   ],
   "note": ""
  },
  {
   "property": "C42",
   "status": "proved",
   "theorems": [
    "Teacher.C42_no_prunning_false",
    "Teacher.C42_known",
    "Teacher.C42_unknown"
   ],
   "note": ""
  },
  {
   "property": "C43",
   "status": "proved",
   "theorems": [
    "Teacher.C43_tree_method",
    "Teacher.C43_rules"
   ],
   "note": ""
  },
  {
   "property": "C44",
   "status": "proved",
   "theorems": [
    "Teacher.C44_leaves",
    "Teacher.C44_error",
    "Teacher.C44_score"
   ],
   "note": ""
  },
  {
   "property": "C45",
   "status": "proved",
   "theorems": [
    "Teacher.C45_bounded"
   ],
   "note": ""
  },
  {
   "property": "C46",
   "status": "partial",
   "theorems": [
    "Teacher.C46_success_partial",
    "Teacher.C46_constant_column_false",
    "Teacher.C46_terminates"
   ],
   "note": "Proved: fit succeeds on every non-empty table with a value for each feature if it does not prune or every column has two different values. The full statement is false of the code: C46_constant_column_false (division by zero)."
  },
  {
   "property": "C47",
   "status": "partial",
   "theorems": [
    "Teacher.C47_fbdt_rules",
    "Teacher.C47_fdt_rules"
   ],
   "note": "Proved for every fitted FDT (C47_fdt_rules) and FBDT (C47_fbdt_rules); false of ID3 (C109_to_rules_false): the base class passes two positional arguments to a method that takes one."
  },
  {
   "property": "C48",
   "status": "proved",
   "theorems": [
    "Teacher.C48_fid3_factual"
   ],
   "note": ""
  },
  {
   "property": "C49",
   "status": "proved",
   "theorems": [
    "Teacher.C49_m_factual"
   ],
   "note": ""
  },
  {
   "property": "C50",
   "status": "proved",
   "theorems": [
    "Teacher.C50_mr_factual_robust",
    "Teacher.C50_mr_factual_vote",
    "Teacher.C50_mr_factual_otherwise"
   ],
   "note": ""
  },
  {
   "property": "C51",
   "status": "proved",
   "theorems": [
    "Teacher.C51_c_factual",
    "Teacher.C51_no_large_drop",
    "Teacher.C51_monotone",
    "Teacher.C51_beta_mass"
   ],
   "note": ""
  },
  {
   "property": "C52",
   "status": "proved",
   "theorems": [
    "Teacher.C52_only_fired_rules"
   ],
   "note": ""
  },
  {
   "property": "C53",
   "status": "proved",
   "theorems": [
    "Teacher.C53_i_changes_class",
    "Teacher.C53_f_changes_class"
   ],
   "note": ""
  },
  {
   "property": "C54",
   "status": "partial",
   "theorems": [
    "Teacher.C54_f_closest_false",
    "Teacher.C54_i_closest",
    "Teacher.C54_f_closest_partial"
   ],
   "note": "Proved for i_counterfactual. For f_counterfactual it is false of the code (C54_f_closest_false: rules at distance 0 from the factual are never tried); proved among the rules at a positive distance."
  },
  {
   "property": "C55",
   "status": "partial",
   "theorems": [
    "Teacher.C55_f_none_false",
    "Teacher.C55_f_total",
    "Teacher.C55_i_none",
    "Teacher.C55_f_none_partial",
    "Teacher.C55_i_total"
   ],
   "note": "Proved for i_counterfactual (with totality on well formed inputs). For f_counterfactual it is false of the code (C55_f_none_false); proved for the rules at a positive distance."
  },
  {
   "property": "C56",
   "status": "proved",
   "theorems": [
    "Teacher.C56_changes"
   ],
   "note": ""
  },
  {
   "property": "C57",
   "status": "proved",
   "theorems": [
    "Teacher.C57_d_total",
    "Teacher.C57_d_sound_closest",
    "Teacher.C57_d_none",
    "Teacher.C57_distance"
   ],
   "note": ""
  },
  {
   "property": "C58",
   "status": "proved",
   "theorems": [
    "Teacher.C58_distance",
    "Teacher.C58_symmetric_zero",
    "Teacher.C58_nearest"
   ],
   "note": ""
  },
  {
   "property": "C59",
   "status": "proved",
   "theorems": [
    "Teacher.C59_literal_distance",
    "Teacher.C59_weighted_distance",
    "Teacher.C59_errors"
   ],
   "note": ""
  },
  {
   "property": "C60",
   "status": "partial",
   "theorems": [
    "Teacher.C60_categorical_partial",
    "Teacher.C60_categorical_false",
    "Teacher.C60_distance_instance",
    "Teacher.C60_distance_rule",
    "Teacher.C60_distance_factual"
   ],
   "note": "False of the code: 'is not' compares object identities (C60_categorical_false). Proved: never less than the number of differing values, and equal when equal strings are the same object."
  },
  {
   "property": "C61",
   "status": "proved",
   "theorems": [
    "Teacher.C61_multiclass"
   ],
   "note": ""
  },
  {
   "property": "C62",
   "status": "partial",
   "theorems": [
    "Teacher.C62_coverage_value",
    "Teacher.C62_antitone",
    "Teacher.C62_more_rules",
    "Teacher.C62_no_rules",
    "Teacher.C62_single_matching",
    "Teacher.C62_any_rule_false",
    "Teacher.C62_any_rule_partial"
   ],
   "note": "Documented meaning (an instance matched by *a* rule is covered) is false for several rules: the code ANDs the rules (C62_any_rule_false). Proved: exact formula for what the code computes, range, antitone in the threshold, IndexError, agreement with Rule.matching, and the documented meaning for a single rule."
  },
  {
   "property": "C63",
   "status": "proved",
   "theorems": [
    "Teacher.C63_precision_value",
    "Teacher.C63_precision_times_coverage",
    "Teacher.C63_nothing_covered"
   ],
   "note": ""
  },
  {
   "property": "C64",
   "status": "proved",
   "theorems": [
    "Teacher.C64_fidelity_value",
    "Teacher.C64_fidelity_properties",
    "Teacher.C64_length_mismatch",
    "Teacher.C64_rule_fidelity_value",
    "Teacher.C64_rule_fidelity_all"
   ],
   "note": ""
  },
  {
   "property": "C65",
   "status": "proved",
   "theorems": [
    "Teacher.C65_moth_value",
    "Teacher.C65_moth_metric"
   ],
   "note": ""
  },
  {
   "property": "C66",
   "status": "proved",
   "theorems": [
    "Teacher.C66_closest_instance",
    "Teacher.C66_none_iff"
   ],
   "note": ""
  },
  {
   "property": "C67",
   "status": "partial",
   "theorems": [
    "Teacher.C67_implausibility_partial",
    "Teacher.C67_member_false"
   ],
   "note": "False as stated: a counterfactual that is a row of the dataset gets the distance to the nearest *different* row (C67_member_false). Proved: implausibility = least positive distance to a row, 0 iff every row equals the counterfactual."
  },
  {
   "property": "C68",
   "status": "proved",
   "theorems": [
    "Teacher.C68_sparsity_value",
    "Teacher.C68_sparsity_metric",
    "Teacher.C68_empty"
   ],
   "note": ""
  },
  {
   "property": "C69",
   "status": "proved",
   "theorems": [
    "Teacher.C69_instability"
   ],
   "note": ""
  },
  {
   "property": "C70",
   "status": "proved",
   "theorems": [
    "Teacher.C70_elitist"
   ],
   "note": ""
  },
  {
   "property": "C71",
   "status": "proved",
   "theorems": [
    "Teacher.C71_no_invention",
    "Teacher.C71_random_init",
    "Teacher.C71_observed_values"
   ],
   "note": ""
  },
  {
   "property": "C72",
   "status": "proved",
   "theorems": [
    "Teacher.C72_crossover"
   ],
   "note": ""
  },
  {
   "property": "C73",
   "status": "proved",
   "theorems": [
    "Teacher.C73_tournament",
    "Teacher.C73_replacement"
   ],
   "note": ""
  },
  {
   "property": "C74",
   "status": "proved",
   "theorems": [
    "Teacher.C74_terminates",
    "Teacher.C74_balanced",
    "Teacher.C74_observed"
   ],
   "note": ""
  },
  {
   "property": "C75",
   "status": "partial",
   "theorems": [
    "Teacher.C75_default_fit_false"
   ],
   "note": "False of the code: C75_default_fit_false proves that fit with the default neighbor_generation fails for every dataset, black box, instance and state (TypeError when the instance can be decoded) and leaves the object unchanged."
  },
  {
   "property": "C76",
   "status": "proved",
   "theorems": [
    "Teacher.C76_distribution",
    "Teacher.C76_probabilities",
    "Teacher.C76_succeeds",
    "Teacher.C76_bad_range"
   ],
   "note": ""
  },
  {
   "property": "C77",
   "status": "partial",
   "theorems": [
    "Teacher.C77_fitted",
    "Teacher.C77_fuzzify_rejected",
    "Teacher.C77_instance_membership",
    "Teacher.C77_getters_partial",
    "Teacher.C77_failed_fuzzify_false",
    "Teacher.C77_y_decoded"
   ],
   "note": "Proved for get_X/get_y, fuzzify before fit, missing arguments, get_instance_membership; get_fuzzy_variables/get_X_membership answer exactly after a fuzzify that got far enough. C77_failed_fuzzify_false: the full claim is false, a failed fuzzify may leave _fuzzy_variables set."
  },
  {
   "property": "C78",
   "status": "partial",
   "theorems": [
    "Teacher.C78_current_partial",
    "Teacher.C78_after_fuzzify",
    "Teacher.C78_refit_false"
   ],
   "note": "Proved right after every successful fuzzify, and in every history in which no fit follows the last fuzzify (C78_current_partial). C78_refit_false: false after fit, fuzzify, fit."
  },
  {
   "property": "C79",
   "status": "proved",
   "theorems": [
    "Teacher.C79_roundtrip",
    "Teacher.C79_unseen",
    "Teacher.C79_no_encoder",
    "Teacher.C79_same_encoders",
    "Teacher.C79_repeated_false"
   ],
   "note": "The hypothesis that the columns are different is needed: C79_repeated_false."
  },
  {
   "property": "C80",
   "status": "partial",
   "theorems": [
    "Teacher.C80_class",
    "Teacher.C80_no_lists",
    "Teacher.C80_discrete_given",
    "Teacher.C80_exactly_one_partial",
    "Teacher.C80_continuous_given",
    "Teacher.C80_both_lists_false"
   ],
   "note": "Full statement false when only the continuous list is given (C80_both_lists_false; exactly characterised by C80_continuous_given); proved in the other cases."
  },
  {
   "property": "C81",
   "status": "partial",
   "theorems": [
    "Teacher.C81_mixed_partial",
    "Teacher.C81_no_discrete_false",
    "Teacher.C81_class_weight_false"
   ],
   "note": "Full statement false: without discrete attributes the continuous ones are ignored (C81_no_discrete_false) and the class counts in the weights (C81_class_weight_false)."
  },
  {
   "property": "C82",
   "status": "proved",
   "theorems": [
    "Teacher.C82_euclidean",
    "Teacher.C82_euclidean_nan",
    "Teacher.C82_simple_match",
    "Teacher.C82_simple_match_empty",
    "Teacher.C82_mad"
   ],
   "note": ""
  },
  {
   "property": "C83",
   "status": "proved",
   "theorems": [
    "Teacher.C83_get_closest",
    "Teacher.C83_success",
    "Teacher.C83_negative"
   ],
   "note": ""
  },
  {
   "property": "C84",
   "status": "partial",
   "theorems": [
    "Teacher.C84_exact_partial",
    "Teacher.C84_valid_partial",
    "Teacher.C84_empty",
    "Teacher.C84_outcome1_false",
    "Teacher.C84_duplicates_false"
   ],
   "note": "Proved for outcome 0; false for outcome 1 (C84_outcome1_false, the second condition compares a count with a ratio) and indices may repeat (C84_duplicates_false). C84_exact_partial pins the selection exactly when the distances are pairwise distinct."
  },
  {
   "property": "C85",
   "status": "proved",
   "theorems": [
    "Teacher.C85_diff_outcome",
    "Teacher.C85_single"
   ],
   "note": ""
  },
  {
   "property": "C86",
   "status": "partial",
   "theorems": [
    "Teacher.C86_explain_fdt",
    "Teacher.C86_explain_fbdt",
    "Teacher.C86_hit_partial",
    "Teacher.C86_hit_fbdt_partial",
    "Teacher.C86_hit_false",
    "Teacher.C86_stale_false"
   ],
   "note": "explain is settled for every history (C86_explain_fdt, C86_explain_fbdt). hit: proved for histories whose last fit succeeded, for none and for some success; false in general: a fit that raises late leaves an answer (C86_hit_false) and a later failing fit changes the target only (C86_stale_false)."
  },
  {
   "property": "C87",
   "status": "partial",
   "theorems": [
    "Teacher.C87_write_partial",
    "Teacher.C87_none_false",
    "Teacher.C87_fbdt_false"
   ],
   "note": "Holds for FDTExplainer with a counterfactual (C87_write_partial). False without one (TypeError, C87_none_false) and for every fitted FBDTExplainer (IndexError, C87_fbdt_false)."
  },
  {
   "property": "C88",
   "status": "proved",
   "theorems": [
    "Teacher.C88_explains_tree",
    "Teacher.C88_invalid",
    "Teacher.C88_d_needs_arguments"
   ],
   "note": "Hypothesis: the keys of the instance membership, a dict, are distinct. The class is the prediction for the argument instance, the matching uses the memberships stored in the neighborhood."
  },
  {
   "property": "C89",
   "status": "proved",
   "theorems": [
    "Teacher.C89_mutate",
    "Teacher.C89_mutate_total",
    "Teacher.C89_oversample",
    "Teacher.C89_generated"
   ],
   "note": ""
  },
  {
   "property": "C90",
   "status": "proved",
   "theorems": [
    "Teacher.C90_smooth",
    "Teacher.C90_in_range",
    "Teacher.C90_terminates"
   ],
   "note": "C90_smooth gives the exact result of the smoothing (clipped rows, kept rows in order, instance last), C90_in_range the range of the kept rows, C90_terminates that the while loop never runs its body. zscore in exact arithmetic."
  },
  {
   "property": "C91",
   "status": "proved",
   "theorems": [
    "Teacher.C91_splits"
   ],
   "note": ""
  },
  {
   "property": "C92",
   "status": "partial",
   "theorems": [
    "Teacher.C92_fast_succeeds_partial",
    "Teacher.C92_nonempty",
    "Teacher.C92_constant_column_false",
    "Teacher.C92_one_class_false"
   ],
   "note": "False in general: C92_constant_column_false (ValueError) and C92_one_class_false (IndexError). C92_fast_succeeds_partial proves success when every column has a value in range and the distributions are met."
  },
  {
   "property": "C93",
   "status": "proved",
   "theorems": [
    "Teacher.C93_partition",
    "Teacher.C93_fuzzify",
    "Teacher.C93_equal_width"
   ],
   "note": ""
  },
  {
   "property": "C94",
   "status": "proved",
   "theorems": [
    "Teacher.C94_generate_dataset",
    "Teacher.C94_missing_class",
    "Teacher.C94_outcome_order_false",
    "Teacher.C94_idx_order_false"
   ],
   "note": "C94_outcome_order_false and C94_idx_order_false show what a user must not infer (possible_outcomes is not indexed by codes; columns must be in the order of the DataFrame)."
  },
  {
   "property": "C95",
   "status": "partial",
   "theorems": [
    "Teacher.C95_build_df2explain_partial",
    "Teacher.C95_class_last_false",
    "Teacher.C95_class_last_error_false"
   ],
   "note": "Proved when the class is the first column; false otherwise (C95_class_last_false, as load_basket does)."
  },
  {
   "property": "C96",
   "status": "partial",
   "theorems": [
    "Teacher.C96_constant_fitness_false",
    "Teacher.C96_single_individual_false",
    "Teacher.C96_generate_data_partial"
   ],
   "note": "False of the code: populations of constant fitness (no oversample) or of one individual make generate_data raise ValueError (the _false theorems). Proved: it succeeds when the populations have at least two individuals and one of the kinds has non-constant fitness."
  },
  {
   "property": "C97",
   "status": "proved",
   "theorems": [
    "Teacher.C97_similar",
    "Teacher.C97_dissimilar",
    "Teacher.C97_identical"
   ],
   "note": ""
  },
  {
   "property": "C98",
   "status": "partial",
   "theorems": [
    "Teacher.C98_single_class_false",
    "Teacher.C98_returns_partial",
    "Teacher.C98_two_classes",
    "Teacher.C98_attribute_error_false"
   ],
   "note": "False of the code: with a single predicted class the code reads Z.columns of an ndarray and raises AttributeError. Proved: returns whenever the generated data has at least two classes (or generation succeeds otherwise as stated)."
  },
  {
   "property": "C99",
   "status": "partial",
   "theorems": [
    "Teacher.C99_feature_values_partial",
    "Teacher.C99_total",
    "Teacher.C99_stale_values_false",
    "Teacher.C99_unbound_false",
    "Teacher.C99_draws_partial"
   ],
   "note": "False of the code: a column neither discrete nor continuous takes the values of the previous column, or raises UnboundLocalError if it is the first. Proved: holds when every column is discrete or continuous."
  },
  {
   "property": "C100",
   "status": "proved",
   "theorems": [
    "Teacher.C100_feature_values"
   ],
   "note": ""
  },
  {
   "property": "C101",
   "status": "proved",
   "theorems": [
    "Teacher.C101_simple_neighborhood"
   ],
   "note": ""
  },
  {
   "property": "C102",
   "status": "proved",
   "theorems": [
    "Teacher.C102_random_data",
    "Teacher.C102_total"
   ],
   "note": ""
  },
  {
   "property": "C103",
   "status": "proved",
   "theorems": [
    "Teacher.C103_real_data"
   ],
   "note": ""
  },
  {
   "property": "C104",
   "status": "proved",
   "theorems": [
    "Teacher.C104_best_feature"
   ],
   "note": ""
  },
  {
   "property": "C105",
   "status": "proved",
   "theorems": [
    "Teacher.C105_gain_is_info_gain",
    "Teacher.C105_info_gain_bounds",
    "Teacher.C105_gain_ok"
   ],
   "note": ""
  },
  {
   "property": "C106",
   "status": "proved",
   "theorems": [
    "Teacher.C106_majority"
   ],
   "note": ""
  },
  {
   "property": "C107",
   "status": "proved",
   "theorems": [
    "Teacher.C107_prunning"
   ],
   "note": ""
  },
  {
   "property": "C108",
   "status": "partial",
   "theorems": [
    "Teacher.C108_refit_partial",
    "Teacher.C108_refit_false"
   ],
   "note": "Proved for prunning=False and for objects whose num_leaf is still 0. With prunning the statement is false of the code (C108_refit_false): num_leaf is not reset."
  },
  {
   "property": "C109",
   "status": "partial",
   "theorems": [
    "Teacher.C109_to_rules_false"
   ],
   "note": "False of the code: every call raises TypeError (C109_to_rules_false); the tree's own method is C43_rules."
  },
  {
   "property": "C110",
   "status": "partial",
   "theorems": [
    "Teacher.C110_refit_partial",
    "Teacher.C110_refit_false"
   ],
   "note": "False of the code: C110_refit_false (the refitted tree keeps the old children). C110_refit_partial describes the refitted tree exactly."
  },
  {
   "property": "C111",
   "status": "partial",
   "theorems": [
    "Teacher.C111_trained_sets_partial",
    "Teacher.C111_trained_sets_false"
   ],
   "note": "The equality is false of the code when a feature is tested twice: C111_trained_sets_false. C111_trained_sets_partial proves the lower bound on every path and the equality when no feature is repeated."
  },
  {
   "property": "C112",
   "status": "partial",
   "theorems": [
    "Teacher.C112_more_classes_false",
    "Teacher.C112_fdt_three_classes"
   ],
   "note": "False: FBDTExplainer.fit never succeeds with more than two classes (f1_score without average); FDTExplainer does on the example."
  },
  {
   "property": "C113",
   "status": "partial",
   "theorems": [
    "Teacher.C113_fid3_false"
   ],
   "note": "False: FID3Explainer.fit never succeeds, because ID3.to_rule_based_system raises TypeError (see C109)."
  },
  {
   "property": "C114",
   "status": "partial",
   "theorems": [
    "Teacher.C114_fidelity_range",
    "Teacher.C114_fidelity_one_partial",
    "Teacher.C114_no_class_one_false",
    "Teacher.C114_fit_fidelity"
   ],
   "note": "Range always; 1 iff agreement with more than two classes, and with at most two when class 1 occurs. False without class 1: fidelity 0 or ValueError (C114_no_class_one_false). f1_score follows the documentation of scikit-learn."
  },
  {
   "property": "C115",
   "status": "proved",
   "theorems": [
    "Teacher.C115_fbdt_explains_tree"
   ],
   "note": ""
  },
  {
   "property": "C116",
   "status": "proved",
   "theorems": [
    "Teacher.C116_splits"
   ],
   "note": "For an arbitrary impurity function; candidates on variables already tested above the node (whose memberships the code raises to 1 for partly covered examples) are not compared."
  },
  {
   "property": "C117",
   "status": "partial",
   "theorems": [
    "Teacher.C117_removed_partial",
    "Teacher.C117_constant_false"
   ],
   "note": "Proved when no continuous column is constant after clipping (C117_removed_partial, Chebyshev); false otherwise: a constant column has nan scores and every row is removed (C117_constant_false, for all such tables)."
  },
  {
   "property": "C118",
   "status": "partial",
   "theorems": [
    "Teacher.C118_fit_partial",
    "Teacher.C118_categorical_false",
    "Teacher.C118_y_decoded_false"
   ],
   "note": "Proved when only the class has an encoder (C118_fit_partial). False with a categorical feature: fit always raises (C118_categorical_false), and the last decoded label is the code, not the class (C118_y_decoded_false). The generation of the table is a parameter."
  },
  {
   "property": "C119",
   "status": "proved",
   "theorems": [
    "Teacher.C119_fuzzify"
   ],
   "note": "Relational: success of the LORE fuzzify implies success of the sampling fuzzify with the same resulting state."
  },
  {
   "property": "C120",
   "status": "partial",
   "theorems": [
    "Teacher.C120_fdt_partial",
    "Teacher.C120_fbdt_partial",
    "Teacher.C120_id3",
    "Teacher.C120_fdt_variables_false",
    "Teacher.C120_fbdt_variables_false"
   ],
   "note": "ID3: proved in full. FDT and FBDT: proved when both trees are grown over the same fuzzy variables; without that it is false of the code, because __eq__ does not compare fuzzy_variable (C120_fdt_variables_false, C120_fbdt_variables_false)."
  },
  {
   "property": "C121",
   "status": "proved",
   "theorems": [
    "Teacher.C121_mixed_value",
    "Teacher.C121_mixed_metric",
    "Teacher.C121_strings",
    "Teacher.C121_unknown_name"
   ],
   "note": ""
  },
  {
   "property": "C122",
   "status": "partial",
   "theorems": [
    "Teacher.C122_jaccard_metric",
    "Teacher.C122_mismatch_le",
    "Teacher.C122_recode_mismatch",
    "Teacher.C122_recode_jaccard_false",
    "Teacher.C122_any_name",
    "Teacher.C122_strings"
   ],
   "note": "Metric axioms and the comparison with mismatch proved in full; invariance under recoding proved for 'mismatch' and false of the code for 'jaccard' (C122_recode_jaccard_false): the code 0 is treated as 'absent'. Any value of distance other than 'mismatch' selects jaccard (C122_any_name)."
  },
  {
   "property": "C123",
   "status": "partial",
   "theorems": [
    "Teacher.C123_implausibility_partial",
    "Teacher.C123_closest",
    "Teacher.C123_instability"
   ],
   "note": "Closest instance and instability proved in full; implausibility proved when some row differs, otherwise the code raises AttributeError because the empty list has no attribute shape (second part of C123_implausibility_partial)."
  },
  {
   "property": "C124",
   "status": "partial",
   "theorems": [
    "Teacher.C124_json",
    "Teacher.C124_json_faithful",
    "Teacher.C124_json_multi",
    "Teacher.C124_fdt_rules",
    "Teacher.C124_fbdt_rules",
    "Teacher.C124_fbdt_unsimplified_false"
   ],
   "note": "Proved for rules with distinct features (all rules of FDT and simplified rules of FBDT); false for rules that repeat a feature, in particular rules of an FBDT that are not simplified (C124_fbdt_unsimplified_false): the dict keeps only the last condition of a feature."
  },
  {
   "property": "C125",
   "status": "partial",
   "theorems": [
    "Teacher.C125_bins_partial",
    "Teacher.C125_dominated_false",
    "Teacher.C125_empty_false"
   ],
   "note": "Proved for samples of one or two values and for larger ones with different quartiles; false for samples dominated by one value (ValueError or OverflowError) and for the empty one. Exact arithmetic, cube root a parameter."
  },
  {
   "property": "C126",
   "status": "partial",
   "theorems": [
    "Teacher.C126_best_fit_partial",
    "Teacher.C126_perfect_fit_false",
    "Teacher.C126_distr_values",
    "Teacher.C126_feature_values_false"
   ],
   "note": "The fits and quantile functions of scipy.stats are parameters. False when a fit has error 0 (passed over), and calculate_feature_values always raises when a continuous column is dominated by one value."
  },
  {
   "property": "C127",
   "status": "proved",
   "theorems": [
    "Teacher.C127_closed_real_data"
   ],
   "note": ""
  },
  {
   "property": "C128",
   "status": "proved",
   "theorems": [
    "Teacher.C128_random_neighborhood"
   ],
   "note": ""
  },
  {
   "property": "C129",
   "status": "partial",
   "theorems": [
    "Teacher.C129_features_partial",
    "Teacher.C129_rows_false",
    "Teacher.C129_none_false",
    "Teacher.C129_twice_false"
   ],
   "note": "The counts, names, types and lists are proved; the data part is false of the code: map(None, …) cannot be read in Python 3 (C129_rows_false), no feature to add raises TypeError (C129_none_false), a second call repeats the names (C129_twice_false)"
  },
  {
   "property": "C130",
   "status": "partial",
   "theorems": [
    "Teacher.C130_class_first",
    "Teacher.C130_last_class",
    "Teacher.C130_as_is",
    "Teacher.C130_real_data",
    "Teacher.C130_basket_columns_false",
    "Teacher.C130_basket_false",
    "Teacher.C130_normalize_false"
   ],
   "note": "Proved for every loader but load_basket, whose columns disagree with its table (C130_basket_columns_false, C130_basket_false); with normalize=True integer-typed columns are truncated by real_data (C130_normalize_false)"
  },
  {
   "property": "C131",
   "status": "proved",
   "theorems": [
    "Teacher.C131_adult",
    "Teacher.C131_adult_missing",
    "Teacher.C131_compas"
   ],
   "note": ""
  },
  {
   "property": "C132",
   "status": "proved",
   "theorems": [
    "Teacher.C132_fdt_score",
    "Teacher.C132_fbdt_score"
   ],
   "note": ""
  },
  {
   "property": "C133",
   "status": "proved",
   "theorems": [
    "Teacher.C133_cuts"
   ],
   "note": ""
  },
  {
   "property": "C134",
   "status": "partial",
   "theorems": [
    "Teacher.C134_num_leaf_partial",
    "Teacher.C134_num_leaf_false",
    "Teacher.C134_last_split"
   ],
   "note": "False of the code for num_leaf: the attribute counts the branches of a node, not the leaves below (C134_num_leaf_false). Proved: 1 for leaves, number of branches for splits, number of leaves for nodes with only leaves below; errors of leaves."
  },
  {
   "property": "C135",
   "status": "proved",
   "theorems": [
    "Teacher.C135_delete_columns",
    "Teacher.C135_loader_columns",
    "Teacher.C135_empty_fuzzy_dataset",
    "Teacher.C135_rule_fidelity_lengths",
    "Teacher.C135_unknown_method",
    "Teacher.C135_instance_membership",
    "Teacher.C135_missing_variable",
    "Teacher.C135_long_instance",
    "Teacher.C135_unknown_column",
    "Teacher.C135_lore_instance",
    "Teacher.C135_fuzzy_points",
    "Teacher.C135_lore_short_instance",
    "Teacher.C135_clip_string",
    "Teacher.C135_encode_unknown",
    "Teacher.C135_random_data_columns",
    "Teacher.C135_label_decode",
    "Teacher.C135_normalize",
    "Teacher.C135_mad_distance",
    "Teacher.C135_diff_outcome",
    "Teacher.C135_sample_width",
    "Teacher.C135_lore_unknown_code",
    "Teacher.C135_no_values",
    "Teacher.C135_informed_init",
    "Teacher.C135_crossover_lengths",
    "Teacher.C135_id3_narrow"
   ],
   "note": ""
  },
  {
   "property": "C136",
   "status": "proved",
   "theorems": [
    "Teacher.C136_fdt_keywords",
    "Teacher.C136_fbdt_keywords",
    "Teacher.C136_type_error"
   ],
   "note": ""
  },
  {
   "property": "C137",
   "status": "proved",
   "theorems": [
    "Teacher.C137_dataframe2explain"
   ],
   "note": "record and decoded table for every matrix of encoded records; IndexError otherwise"
  },
  {
   "property": "C138",
   "status": "partial",
   "theorems": [
    "Teacher.C138_generation_partial",
    "Teacher.C138_returned_partial",
    "Teacher.C138_old"
   ],
   "note": "false in full: the step fails when all records get the same predicted class; proved for runs predicting both, and conversely for everything returned"
  },
  {
   "property": "C139",
   "status": "partial",
   "theorems": [
    "Teacher.C139_oversampling_partial",
    "Teacher.C139_selection_partial",
    "Teacher.C139_imblearn_false"
   ],
   "note": "proved for samplers with the interface the code calls; C139_imblearn_false: with the versions of imblearn that dropped it no call returns"
  },
  {
   "property": "C140",
   "status": "partial",
   "theorems": [
    "Teacher.C140_lore_fit_partial",
    "Teacher.C140_rows_partial"
   ],
   "note": "false with categorical features (fit fails, C118); proved for continuous features"
  },
  {
   "property": "C141",
   "status": "partial",
   "theorems": [
    "Teacher.C141_equality_partial",
    "Teacher.C141_hash_false",
    "Teacher.C141_order",
    "Teacher.C141_sorted"
   ],
   "note": "false in full: discrete sets cannot be hashed or compared with < (C141_hash_false); everything else proved"
  },
  {
   "property": "C142",
   "status": "partial",
   "theorems": [
    "Teacher.C142_fdt_partial",
    "Teacher.C142_fbdt_partial",
    "Teacher.C142_fbdt_false",
    "Teacher.C142_id3",
    "Teacher.C142_rule_partial",
    "Teacher.C142_rule_false"
   ],
   "note": "proved for FDT, ID3 and rules without separators in their names; false for binary trees, which never show the fuzzy sets (C142_fbdt_false), and for names with separators (C142_rule_false)"
  },
  {
   "property": "C143",
   "status": "partial",
   "theorems": [
    "Teacher.C143_fdt_explains_partial",
    "Teacher.C143_ready",
    "Teacher.C143_encoded_instance_false"
   ],
   "note": "Proved for the decoded instance (C143_fdt_explains_partial), with readiness after fuzzify (C143_ready). False when the encoded instance is passed (C143_encoded_instance_false): the tree then predicts on codes while the rules use the decoded memberships."
  },
  {
   "property": "C144",
   "status": "proved",
   "theorems": [
    "Teacher.C144_fit",
    "Teacher.C144_succeeds",
    "Teacher.C144_short_instance",
    "Teacher.C144_error"
   ],
   "note": "iff characterisation of success and of the resulting state; C144_succeeds gives the checkable sufficient condition; C144_short_instance and C144_error characterise the exceptions."
  },
  {
   "property": "C145",
   "status": "proved",
   "theorems": [
    "Teacher.C145_pipeline",
    "Teacher.C145_fdt_explains"
   ],
   "note": "C145_pipeline: readiness after any history. C145_fdt_explains: the explainer on top, for the decoded instance as the statement says."
  },
  {
   "property": "C146",
   "status": "partial",
   "theorems": [
    "Teacher.C146_fbdt_explains_partial",
    "Teacher.C146_end_to_end",
    "Teacher.C146_fbdt_explains_false"
   ],
   "note": "Proved for the decoded instance, at most two classes and without the keywords of d_counterfactual (C146_end_to_end, C146_fbdt_explains_partial); false with three classes or with those keywords (C146_fbdt_explains_false)."
  },
  {
   "property": "C147",
   "status": "proved",
   "theorems": [
    "Teacher.C147_fit",
    "Teacher.C147_fuzzify",
    "Teacher.C147_pipeline",
    "Teacher.C147_fdt_explains",
    "Teacher.C147_fbdt_explains"
   ],
   "note": "fit (C147_fit), fuzzify (C147_fuzzify), both (C147_pipeline) and both explainers (C147_fdt_explains, C147_fbdt_explains); with a categorical feature fit never succeeds (C118)."
  },
  {
   "property": "C148",
   "status": "proved",
   "theorems": [
    "Teacher.C148_fit",
    "Teacher.C148_good_sample",
    "Teacher.C148_fdt_explains",
    "Teacher.C148_fbdt_explains"
   ],
   "note": "C148_fit, C148_good_sample, C148_fdt_explains, C148_fbdt_explains (two classes); square root and standard deviation are parameters (square root: nonnegative, positive on positive numbers)"
  },
  {
   "property": "C149",
   "status": "proved",
   "theorems": [
    "Teacher.C149_value",
    "Teacher.C149_zero",
    "Teacher.C149_bounded",
    "Teacher.C149_units",
    "Teacher.C149_triangle_false",
    "Teacher.C149_errors"
   ],
   "note": "value, zero, bound, units, errors; triangle inequality shown to fail"
  },
  {
   "property": "C150",
   "status": "proved",
   "theorems": [
    "Teacher.C150_mad_value",
    "Teacher.C150_mad_metric",
    "Teacher.C150_mad_string",
    "Teacher.C150_no_table",
    "Teacher.C150_agg",
    "Teacher.C150_default",
    "Teacher.C150_agg_other",
    "Teacher.C150_ratio",
    "Teacher.C150_ratio_negative"
   ],
   "note": "MAD value and metric, agg, ratio_cont"
  },
  {
   "property": "C151",
   "status": "partial",
   "theorems": [
    "Teacher.C151_units_partial",
    "Teacher.C151_units_false"
   ],
   "note": "false when one value fills more than half of a column (MAD 0 replaced by 1): C151_units_false; proved otherwise"
  },
  {
   "property": "C152",
   "status": "proved",
   "theorems": [
    "Teacher.C152_explainer_closest"
   ],
   "note": "all three methods, with completeness for None"
  },
  {
   "property": "C153",
   "status": "proved",
   "theorems": [
    "Teacher.C153_fdt",
    "Teacher.C153_fbdt",
    "Teacher.C153_id3"
   ],
   "note": "equivalence relation; ID3: iff structural equality"
  },
  {
   "property": "C154",
   "status": "partial",
   "theorems": [
    "Teacher.C154_fid3_partial",
    "Teacher.C154_one_leaf"
   ],
   "note": "Proved for labels above one half with the others below (C154_fid3_partial) and the ValueError of a one-leaf tree (C154_one_leaf); C154_tie_false: with a tie between two labels the factual can be for another class."
  },
  {
   "property": "C155",
   "status": "proved",
   "theorems": [
    "Teacher.C155_matching",
    "Teacher.C155_default",
    "Teacher.C155_matching_multi",
    "Teacher.C155_tnorm_le_min",
    "Teacher.C155_tnorm_order",
    "Teacher.C155_tnorm_more",
    "Teacher.C155_tnorm_mono"
   ],
   "note": "For an arbitrary t_norm function; t-norm laws as a specification, product and Lukasiewicz as instances."
  },
  {
   "property": "C156",
   "status": "proved",
   "theorems": [
    "Teacher.C156_fuzzify",
    "Teacher.C156_no_sets",
    "Teacher.C156_row_factual"
   ],
   "note": "C156_fuzzify, C156_no_sets: the table; C156_row_factual: the factual of a row without ties (C154_tie_false shows why that is needed)."
  },
  {
   "property": "C157",
   "status": "proved",
   "theorems": [
    "Teacher.C157_row_order",
    "Teacher.C157_entropy",
    "Teacher.C157_eq_false",
    "Teacher.C157_fbdt"
   ],
   "note": "FDT: C157_row_order (any order-free impurity) and C157_entropy (the library's entropy); FBDT: C157_fbdt. C157_eq_false records that == compares the stored degrees."
  },
  {
   "property": "C158",
   "status": "partial",
   "theorems": [
    "Teacher.C158_row_order_partial",
    "Teacher.C158_false"
   ],
   "note": "C158_row_order_partial: exact equality of the trees when the listing order of a set of classes depends on its elements only; C158_false: with an insertion dependent order (as CPython has for colliding hashes) and a tie between classes the trees differ."
  },
  {
   "property": "C159",
   "status": "proved",
   "theorems": [
    "Teacher.C159_membership",
    "Teacher.C159_fdt",
    "Teacher.C159_fbdt"
   ],
   "note": "C159_membership (all tables and variables), C159_fdt, C159_fbdt."
  },
  {
   "property": "C160",
   "status": "partial",
   "theorems": [
    "Teacher.C160_entropy",
    "Teacher.C160_equal_width_partial",
    "Teacher.C160_equal_freq_partial",
    "Teacher.C160_rounding_false"
   ],
   "note": "By entropy without restriction (C160_entropy); equal width and equal frequency when the rounding of the interval labels commutes with the unit (C160_equal_width_partial, C160_equal_freq_partial); C160_rounding_false: the rounding of pandas labels breaks it."
  },
  {
   "property": "C161",
   "status": "proved",
   "theorems": [
    "Teacher.C161_crisp"
   ],
   "note": "Props/FBDTCrisp: C161_crisp."
  },
  {
   "property": "C162",
   "status": "proved",
   "theorems": [
    "Teacher.C162_fdt",
    "Teacher.C162_fdt_fails",
    "Teacher.C162_fbdt_fails",
    "Teacher.C162_fbdt",
    "Teacher.C162_entropy",
    "Teacher.C162_order_matters"
   ],
   "note": "Props/ClassNames: C162_fdt, C162_fbdt, C162_entropy; C162_order_matters shows that the order of the names is needed."
  },
  {
   "property": "C163",
   "status": "proved",
   "theorems": [
    "Teacher.C163_fdt",
    "Teacher.C163_fbdt"
   ],
   "note": "Proved for FDT and FBDT and for the rules of both."
  },
  {
   "property": "C164",
   "status": "proved",
   "theorems": [
    "Teacher.C164_fdt_product",
    "Teacher.C164_fdt_min",
    "Teacher.C164_fbdt_min"
   ],
   "note": "Proved. Nothing is claimed for FBDT with the product: it repeats features on a path, so that the products do not add up to 1."
  },
  {
   "property": "C165",
   "status": "proved",
   "theorems": [
    "Teacher.C165_membership",
    "Teacher.C165_fdt",
    "Teacher.C165_fbdt",
    "Teacher.C165_rule",
    "Teacher.C165_outside_false"
   ],
   "note": "Lipschitz bounds for memberships, rule matchings, votes of fitted FDT/FBDT and stability of the predicted class under a margin; range hypothesis shown necessary"
  },
  {
   "property": "C166",
   "status": "proved",
   "theorems": [
    "Teacher.C166_id3"
   ],
   "note": ""
  },
  {
   "property": "C167",
   "status": "partial",
   "theorems": [
    "Teacher.C167_fdt_columns_partial",
    "Teacher.C167_false",
    "Teacher.C167_fbdt_false"
   ],
   "note": "False of the code when the iteration order of the Python set follows the insertion order (C167_false, tie of the gain) and for FBDT (C167_fbdt_false); proved for every iteration order that depends only on the elements of the set."
  },
  {
   "property": "C168",
   "status": "proved",
   "theorems": [
    "Teacher.C168_binary64",
    "Teacher.C168_degree",
    "Teacher.C168_unimodal",
    "Teacher.C168_partition"
   ],
   "note": "In the floating point model (Model/Rounded), for every arithmetic satisfying Spec.Lawful; no overflow."
  },
  {
   "property": "C169",
   "status": "proved",
   "theorems": [
    "Teacher.C169_binary64",
    "Teacher.C169_fitted",
    "Teacher.C169_same_prediction"
   ],
   "note": "In the floating point model (Model/Rounded), for every arithmetic satisfying Spec.Lawful; no overflow."
  },
  {
   "property": "C170",
   "status": "proved",
   "theorems": [
    "Teacher.C170_tree",
    "Teacher.C170_fit_succeeds"
   ],
   "note": "In the floating point model (Model/Rounded), for every arithmetic satisfying Spec.Lawful; no overflow."
  },
  {
   "property": "C171",
   "status": "proved",
   "theorems": [
    "Teacher.C171_fdt_predict",
    "Teacher.C171_fdt_predict_fitted",
    "Teacher.C171_fdt_missing_column",
    "Teacher.C171_fdt_fit",
    "Teacher.C171_fbdt_fit",
    "Teacher.C171_fbdt_predict",
    "Teacher.C171_fbdt_predict_fitted",
    "Teacher.C171_fdt_rules",
    "Teacher.C171_fbdt_rules",
    "Teacher.C171_untrained",
    "Teacher.C171_rule_metrics",
    "Teacher.C171_moth_distance",
    "Teacher.C171_norm_euclid",
    "Teacher.C171_id3_predict",
    "Teacher.C171_explainer_arguments",
    "Teacher.C171_explainer_neighborhood",
    "Teacher.C171_write_before_fit",
    "Teacher.C171_factual_keywords",
    "Teacher.C171_mixed_distance"
   ],
   "note": "Complete lists of exceptions with their causes; exact (iff) for the table/label checks, the default distance and the untrained object. Where several causes are present at once the theorem says the error is the one of some present cause, not which comes first."
  },
  {
   "property": "C172",
   "status": "proved",
   "theorems": [
    "Teacher.C172_binary64",
    "Teacher.C172_same_prediction",
    "Teacher.C172_fitted"
   ],
   "note": "For every lawful rounding; also for fitted trees (C172_fitted)."
  },
  {
   "property": "C173",
   "status": "proved",
   "theorems": [
    "Teacher.C173_nodes",
    "Teacher.C173_two_children",
    "Teacher.C173_leaves",
    "Teacher.C173_fit_succeeds"
   ],
   "note": "For every lawful rounding and every entropy function. fuzzy_threshold > 0 as in C38."
  },
  {
   "property": "C174",
   "status": "partial",
   "theorems": [
    "Teacher.C174_binary64_partial",
    "Teacher.C174_memberships_partial",
    "Teacher.C174_memberships_false"
   ],
   "note": "False of the code, in double precision (C174_memberships_false: nine examples with the values 0, 1.1, 8.6, 7.11; same tests, membership 1-2^-53 instead of 0.1987, other prediction for 3.0). Proved: paths without a repeated variable, and the lower bound in general; C174_binary64_partial with explicit constant."
  },
  {
   "property": "C175",
   "status": "partial",
   "theorems": [
    "Teacher.C175_m_factual_partial",
    "Teacher.C175_single",
    "Teacher.C175_not_empty_false"
   ],
   "note": "Bounds around the mean proved for every lawful rounding (C175_m_factual_partial, C175_single); the explanation can be empty in double precision (C175_not_empty_false)."
  },
  {
   "property": "C176",
   "status": "proved",
   "theorems": [
    "Teacher.C176_mr_factual"
   ],
   "note": ""
  },
  {
   "property": "C177",
   "status": "proved",
   "theorems": [
    "Teacher.C177_c_factual",
    "Teacher.C177_none_fired",
    "Teacher.C177_binary64"
   ],
   "note": ""
  },
  {
   "property": "C178",
   "status": "proved",
   "theorems": [
    "Teacher.C178_matching_multi"
   ],
   "note": ""
  },
  {
   "property": "C179",
   "status": "proved",
   "theorems": [
    "Teacher.C179_weighted_vote",
    "Teacher.C179_exact_winner_false"
   ],
   "note": ""
  },
  {
   "property": "C180",
   "status": "proved",
   "theorems": [
    "Teacher.C180_i_counterfactual",
    "Teacher.C180_i_none",
    "Teacher.C180_i_none_exact",
    "Teacher.C180_i_total"
   ],
   "note": ""
  },
  {
   "property": "C181",
   "status": "proved",
   "theorems": [
    "Teacher.C181_f_counterfactual",
    "Teacher.C181_f_none"
   ],
   "note": ""
  },
  {
   "property": "C182",
   "status": "proved",
   "theorems": [
    "Teacher.C182_d_counterfactual"
   ],
   "note": ""
  },
  {
   "property": "C183",
   "status": "proved",
   "theorems": [
    "Teacher.C183_order",
    "Teacher.C183_m_same_rules",
    "Teacher.C183_no_ties"
   ],
   "note": ""
  },
  {
   "property": "C184",
   "status": "proved",
   "theorems": [
    "Teacher.C184_irrelevant_rules",
    "Teacher.C184_mr_irrelevant"
   ],
   "note": ""
  },
  {
   "property": "C185",
   "status": "proved",
   "theorems": [
    "Teacher.C185_scale"
   ],
   "note": ""
  },
  {
   "property": "C186",
   "status": "proved",
   "theorems": [
    "Teacher.C186_nested"
   ],
   "note": ""
  },
  {
   "property": "C187",
   "status": "proved",
   "theorems": [
    "Teacher.C187_scale"
   ],
   "note": ""
  },
  {
   "property": "C188",
   "status": "proved",
   "theorems": [
    "Teacher.C188_i_order",
    "Teacher.C188_f_order",
    "Teacher.C188_d_order",
    "Teacher.C188_vote"
   ],
   "note": ""
  },
  {
   "property": "C189",
   "status": "partial",
   "theorems": [
    "Teacher.C189_minimal_partial",
    "Teacher.C189_minimal_false"
   ],
   "note": "False of the code (C189_minimal_false: the nearest rule can ask for more than is needed). Proved: a part of the changes that flips the class and is asked for by some rule comes from a rule at least as far away."
  },
  {
   "property": "C190",
   "status": "proved",
   "theorems": [
    "Teacher.C190_rounding",
    "Teacher.C190_fraction",
    "Teacher.C190_coverage"
   ],
   "note": ""
  },
  {
   "property": "C191",
   "status": "proved",
   "theorems": [
    "Teacher.C191_moth",
    "Teacher.C191_zero_symmetric",
    "Teacher.C191_ieee_odd",
    "Teacher.C191_binary64_symmetric"
   ],
   "note": ""
  },
  {
   "property": "C192",
   "status": "proved",
   "theorems": [
    "Teacher.C192_closest",
    "Teacher.C192_implausibility"
   ],
   "note": ""
  },
  {
   "property": "C193",
   "status": "proved",
   "theorems": [
    "Teacher.C193_instability"
   ],
   "note": ""
  },
  {
   "property": "C194",
   "status": "partial",
   "theorems": [
    "Teacher.C194_metric_partial",
    "Teacher.C194_metric_false"
   ],
   "note": "False in double precision (C194_metric_false: underflow makes different rows be at distance 0; 0, 1, 8 with MAD 10 violate the triangle inequality). Proved: symmetry, non-negativity, 0 on equal rows, positive distance for rows that differ in a discrete column, triangle inequality up to the rounding errors."
  },
  {
   "property": "C195",
   "status": "partial",
   "theorems": [
    "Teacher.C195_range",
    "Teacher.C195_close_partial",
    "Teacher.C195_same_peak_false",
    "Teacher.C195_disjoint_false"
   ],
   "note": "range, symmetry and identity for all sets; accuracy 5u+eta for peaks further apart than 8u times the widths. Accuracy for all sets is false of the code in double precision: C195_same_peak_false, C195_disjoint_false"
  },
  {
   "property": "C196",
   "status": "partial",
   "theorems": [
    "Teacher.C196_alpha_cut_partial",
    "Teacher.C196_to_crisp_partial",
    "Teacher.C196_peak_false"
   ],
   "note": "everything up to the rounding error; that rows of degree >= alpha satisfy the crisp rule exactly is false of the code in double precision (C196_peak_false)"
  },
  {
   "property": "C197",
   "status": "partial",
   "theorems": [
    "Teacher.C197_range",
    "Teacher.C197_close_partial",
    "Teacher.C197_merge",
    "Teacher.C197_ieee_double",
    "Teacher.C197_same_peak_false"
   ],
   "note": "range, symmetry, identity and merge for all sets; accuracy of jaccard_similarity for peaks that are apart, false otherwise (C197_same_peak_false)"
  },
  {
   "property": "C198",
   "status": "partial",
   "theorems": [
    "Teacher.C198_map",
    "Teacher.C198_succeeds",
    "Teacher.C198_errors",
    "Teacher.C198_identity_partial",
    "Teacher.C198_best_partial",
    "Teacher.C198_identity_false",
    "Teacher.C198_best_false"
   ],
   "note": "first maximum of the computed key for all variables; near-optimality and identity for sets that can be told apart, false otherwise (C198_best_false, C198_identity_false)"
  },
  {
   "property": "C199",
   "status": "proved",
   "theorems": [
    "Teacher.C199_points",
    "Teacher.C199_too_short"
   ],
   "note": "For every arithmetic, without any law; the only exceptions are those of the entropies of degrees of the column (C199_points)."
  },
  {
   "property": "C200",
   "status": "partial",
   "theorems": [
    "Teacher.C200_pure",
    "Teacher.C200_error_iff",
    "Teacher.C200_nonneg_partial",
    "Teacher.C200_left_sum",
    "Teacher.C200_succeeds_partial",
    "Teacher.C200_binary64_partial",
    "Teacher.C200_underflow_false",
    "Teacher.C200_nonneg_false"
   ],
   "note": "False in double precision: the column [0, 5e-324, 1, 1] raises ValueError because a share underflows (C200_underflow_false), and numpy's pairwise summation gives a negative entropy (C200_nonneg_false). Proved: exactly when an entropy raises, 0 for one class, non-negative for left to right summation, success of the discretisation without underflow, in double precision for fewer than 2^53 rows and differences within a factor 2^1000."
  },
  {
   "property": "C201",
   "status": "proved",
   "theorems": [
    "Teacher.C201_cuts"
   ],
   "note": "The specification DiscretizedF determines the points."
  },
  {
   "property": "C202",
   "status": "proved",
   "theorems": [
    "Teacher.C202_same_points"
   ],
   "note": "The margins are hypotheses on the parts reached by the exact recursion (Part, ClearPart)."
  },
  {
   "property": "C203",
   "status": "partial",
   "theorems": [
    "Teacher.C203_simmilarity_partial",
    "Teacher.C203_kinds",
    "Teacher.C203_simmilarity_false"
   ],
   "note": "As in exact arithmetic (C06) it is false for sets with wide left sides (C203_simmilarity_false). Proved: symmetric, at most 1, not negative for sets whose left sides are not wider than the right ones, the value of a set with itself, the exceptions."
  },
  {
   "property": "C204",
   "status": "proved",
   "theorems": [
    "Teacher.C204_column"
   ],
   "note": "from a column to degrees in floating point, for every lawful rounding"
  },
  {
   "property": "C205",
   "status": "proved",
   "theorems": [
    "Teacher.C205_fdt"
   ],
   "note": "min t-norm as in fit; computed degree at least 1/2 - degreeError"
  },
  {
   "property": "C206",
   "status": "proved",
   "theorems": [
    "Teacher.C206_training",
    "Teacher.C206_binary64"
   ],
   "note": "C206_training for every lawful rounding given the variables; C206_binary64 from the table alone. The texts of different doubles are assumed different (true of Python's str of floats)."
  },
  {
   "property": "C207",
   "status": "proved",
   "theorems": [
    "Teacher.C207_fbdt",
    "Teacher.C207_training"
   ],
   "note": "min t-norm as in fit; unions added from left to right with rounding"
  },
  {
   "property": "C208",
   "status": "proved",
   "theorems": [
    "Teacher.C208_fdt",
    "Teacher.C208_fbdt",
    "Teacher.C208_binary64",
    "Teacher.C208_fbdt_binary64"
   ],
   "note": "without the margin that C169 and C172 need; min t-norm"
  },
  {
   "property": "C209",
   "status": "proved",
   "theorems": [
    "Teacher.C209_fdt",
    "Teacher.C209_fbdt",
    "Teacher.C209_binary64"
   ],
   "note": ""
  },
  {
   "property": "C210",
   "status": "proved",
   "theorems": [
    "Teacher.C210_splits"
   ],
   "note": ""
  },
  {
   "property": "C211",
   "status": "proved",
   "theorems": [
    "Teacher.C211_splits"
   ],
   "note": ""
  }
 ]
}