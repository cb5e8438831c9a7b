'AQ.C01_linear_value_is_order_statistic' depends on axioms: [propext, Classical.choice, Quot.sound]
'AQ.C01_linear_exact' depends on axioms: [propext, Classical.choice, Quot.sound]
'AQ.C01_history_returns' depends on axioms: [propext, Classical.choice, Quot.sound]
'AQ.C01_unrepresentable_length_panics' depends on axioms: [propext, Classical.choice, Quot.sound]
'AQ.C02_linear_quantile_formula' depends on axioms: [propext, Classical.choice, Quot.sound]
'AQ.C02_linear_quantile_monotone' depends on axioms: [propext, Classical.choice, Quot.sound]
'AQ.C03_linear_order_irrelevant' depends on axioms: [propext, Classical.choice, Quot.sound]
'AQ.C04_weighted_average_bounds' depends on axioms: [propext, Quot.sound]
'AQ.C04_weighted_average_exact' depends on axioms: [propext, Classical.choice, Quot.sound]
'AQ.C05_count_exact' depends on axioms: [propext, Classical.choice, Quot.sound]
'AQ.C06_buffers_below_capacity' depends on axioms: [propext, Classical.choice, Quot.sound]
'AQ.C07_insertions_never_panic' depends on axioms: [propext, Classical.choice, Quot.sound]
'AQ.C07_insertions_never_panic_average' depends on axioms: [propext, Classical.choice, Quot.sound]
'AQ.C07_queries_never_panic' depends on axioms: [propext, Classical.choice, Quot.sound]
'AQ.C08_weight_conserved_partial' depends on axioms: [propext, Classical.choice, Quot.sound]
'AQ.C08_top_is_one_partial' depends on axioms: [propext, Classical.choice, Quot.sound]
'AQ.C08_top_is_one_average_partial' depends on axioms: [propext, Classical.choice, Quot.sound]
'AQ.C08_odd_k_weight_not_conserved' depends on axioms: [propext, Classical.choice, Quot.sound]
'AQ.C09_rank_error_bound' depends on axioms: [propext, Classical.choice, Quot.sound]
'AQ.C09_rank_error_bound_any_method' depends on axioms: [propext, Classical.choice, Quot.sound]
'AQ.C09_counters' depends on axioms: [propext, Classical.choice, Quot.sound]
'AQ.C10_rank_unbiased' depends on axioms: [propext, Classical.choice, Quot.sound]
'AQ.C10_interpolate_rank_unbiased' depends on axioms: [propext, Classical.choice, Quot.sound]
'AQ.C11_low_ranks_exact' depends on axioms: [propext, Classical.choice, Quot.sound]
'AQ.C12_quantile_monotone' depends on axioms: [propext, Classical.choice, Quot.sound]
'AQ.C13_value_is_input' depends on axioms: [propext, Classical.choice, Quot.sound]
'AQ.C13_value_in_range' depends on axioms: [propext, Classical.choice, Quot.sound]
'AQ.C13_average_overflow' depends on axioms: [propext, Classical.choice, Quot.sound]
'AQ.C14_value_monotone' depends on axioms: [propext, Classical.choice, Quot.sound]
'AQ.C15_memory_logarithmic' depends on axioms: [propext, Classical.choice, Quot.sound]
'AQ.C16_add_buffer_is_repeated_add' depends on axioms: [propext, Classical.choice, Quot.sound]
'AQ.C17_value_quantile_consistent' depends on axioms: [propext, Classical.choice, Quot.sound]
'AQ.C17_rank_is_interpolate_rank' depends on axioms: [propext, Quot.sound]
'AQ.C18_count_and_size_exact' depends on axioms: [propext, Classical.choice, Quot.sound]
'AQ.C19_insertions_never_panic' depends on axioms: [propext, Classical.choice, Quot.sound]
'AQ.C19_insertions_never_panic_average' depends on axioms: [propext, Classical.choice, Quot.sound]
'AQ.C19_insertions_never_panic_real' depends on axioms: [propext, Classical.choice, Quot.sound]
'AQ.C19_rank_queries_never_panic' depends on axioms: [propext, Classical.choice, Quot.sound]
'AQ.C19_value_queries_never_panic' depends on axioms: [propext, Classical.choice, Quot.sound]
'AQ.C19_k1_panics' depends on axioms: [propext, Classical.choice, Quot.sound]
'AQ.C19_insertions_never_panic_f32' depends on axioms: [propext, Classical.choice, Quot.sound]
'AQ.C19_queries_never_panic_f32' depends on axioms: [propext, Classical.choice, Quot.sound]
'AQ.C20_stored_below_capacity' depends on axioms: [propext, Classical.choice, Quot.sound]
'AQ.C21_rank_error_bound' depends on axioms: [propext, Classical.choice, Quot.sound]
'AQ.C21_rank_error_bound_any_method' depends on axioms: [propext, Classical.choice, Quot.sound]
'AQ.C22_rank_unbiased' depends on axioms: [propext, Classical.choice, Quot.sound]
'AQ.C22_interpolate_rank_unbiased' depends on axioms: [propext, Classical.choice, Quot.sound]
'AQ.C22_interpolate_rank_unbiased_f32' depends on axioms: [propext, Classical.choice, Quot.sound]
'AQ.C23_low_ranks_exact' depends on axioms: [propext, Classical.choice, Quot.sound]
'AQ.C23_low_ranks_exact_f32' depends on axioms: [propext, Classical.choice, Quot.sound]
'AQ.C24_quantile_monotone' depends on axioms: [propext, Classical.choice, Quot.sound]
'AQ.C24_value_monotone' depends on axioms: [propext, Classical.choice, Quot.sound]
'AQ.C24_value_is_input' depends on axioms: [propext, Classical.choice, Quot.sound]
'AQ.C25_prefix_sums' depends on axioms: [propext, Classical.choice, Quot.sound]
'AQ.C25_duplicate_key_panics' depends on axioms: [propext, Classical.choice, Quot.sound]
'AQ.C26_contents' depends on axioms: [propext, Classical.choice, Quot.sound]
'AQ.C26_delete_missing_key_miscounts' depends on axioms: [propext, Classical.choice, Quot.sound]
'AQ.C27_prefix_sums_after_deletions_partial' depends on axioms: [propext, Classical.choice, Quot.sound]
'AQ.C27_prefix_sums_wrong_after_delete' depends on axioms: [propext, Classical.choice, Quot.sound]
'AQ.C27_prefix_sums_too_small_after_delete' depends on axioms: [propext, Classical.choice, Quot.sound]
'AQ.C28_closest_keys' depends on axioms: [propext, Classical.choice, Quot.sound]
'AQ.C29_total_weight' depends on axioms: [propext, Classical.choice, Quot.sound]
'AQ.C29_count' depends on axioms: [propext, Classical.choice, Quot.sound]
'AQ.C30_min_max_partial' depends on axioms: [propext, Classical.choice, Quot.sound]
'AQ.C30_min_max_first_batch_partial' depends on axioms: [propext, Quot.sound]
'AQ.C30_max_exceeds_data_with_rounding' depends on axioms: [propext, Classical.choice, Quot.sound]
'AQ.C31_sorted_in_range' depends on axioms: [propext, Classical.choice, Quot.sound]
'AQ.C31_unsorted_with_rounding' depends on axioms: [propext, Classical.choice, Quot.sound]
'AQ.C32_mass' depends on axioms: [propext, Classical.choice, Quot.sound]
'AQ.C33_merge_joins_neighbours' depends on axioms: [propext, Classical.choice, Quot.sound]
'AQ.C34_quantile_is_probability' depends on axioms: [propext, Classical.choice, Quot.sound]
'AQ.C34_empty_is_nan' depends on axioms: [propext, Quot.sound]
'AQ.C35_quantile_monotone_partial' depends on axioms: [propext, Classical.choice, Quot.sound]
'AQ.C35_single_batch_monotone_partial' depends on axioms: [propext, Classical.choice, Quot.sound]
'AQ.C35_not_monotone_at_last_mean' depends on axioms: [propext, Classical.choice, Quot.sound]
'AQ.C35_not_monotone_below_first_mean' depends on axioms: [propext, Classical.choice, Quot.sound]
'AQ.C36_value_in_range_partial' depends on axioms: [propext, Classical.choice, Quot.sound]
'AQ.C36_value_below_min' depends on axioms: [propext, Classical.choice, Quot.sound]
'AQ.C36_value_nan' depends on axioms: [propext, Classical.choice, Quot.sound]
'AQ.C37_extreme_quantiles' depends on axioms: [propext, Classical.choice, Quot.sound]
'AQ.C38_value_never_panics' depends on axioms: [propext, Classical.choice, Quot.sound]
'AQ.C38_empty_returns_max_value' depends on axioms: [propext, Classical.choice, Quot.sound]
'AQ.C39_uncompressed_is_exact' depends on axioms: [propext, Classical.choice, Quot.sound]
'AQ.C40_size_bounded' depends on axioms: [propext, Classical.choice, Quot.sound]
'AQ.C41_cluster_history' depends on axioms: [propext, Classical.choice, Quot.sound]
'AQ.C41_cluster_size' depends on axioms: [propext, Classical.choice, Quot.sound]
'AQ.C41_cluster_unsorted' depends on axioms: [propext, Classical.choice, Quot.sound]
'AQ.C42_closest_bounds' depends on axioms: [propext, Classical.choice, Quot.sound]
'AQ.C42_closest_contains_nearest' depends on axioms: [propext, Classical.choice, Quot.sound]
'AQ.C43_tree_history' depends on axioms: [propext, Classical.choice, Quot.sound]
'AQ.C43_tree_sorted' depends on axioms: [propext, Classical.choice, Quot.sound]
'AQ.C43_tree_size' depends on axioms: [propext, Classical.choice, Quot.sound]
'AQ.C43_tree_duplicate_panics' depends on axioms: [propext, Classical.choice, Quot.sound]
'AQ.C44_value_monotone_partial' depends on axioms: [propext, Classical.choice, Quot.sound]
'AQ.C44_value_not_monotone' depends on axioms: [propext, Classical.choice, Quot.sound]
'AQ.C60_tdigest_nan_panics' depends on axioms: [propext, Quot.sound]
'AQ.C60_single_nan_accepted' depends on axioms: [propext, Classical.choice, Quot.sound]
'AQ.C60_linear_value_nan_panics' depends on axioms: [propext, Classical.choice, Quot.sound]
'AQ.C60_compact_nan_panics' depends on axioms: [propext, Quot.sound]
'AQ.C60_rc_value_nan_panics' depends on axioms: [propext, Quot.sound]
'AQ.C60_rc2_compact_nan_panics' depends on axioms: [propext, Quot.sound]
'AQ.C60_rc2_value_nan_panics' depends on axioms: [propext, Quot.sound]
'AQ.C61_variance_by_compactions' depends on axioms: [propext, Classical.choice, Quot.sound]
'AQ.C61_mean_squared_error' depends on axioms: [propext, Classical.choice, Quot.sound]
'AQ.C61_interpolate_rank_error' depends on axioms: [propext, Classical.choice, Quot.sound]
'AQ.C62_rank_error_tail' depends on axioms: [propext, Classical.choice, Quot.sound]
'AQ.C62_interpolate_rank_tail' depends on axioms: [propext, Classical.choice, Quot.sound]
'AQ.C63_a_priori_rank_error' depends on axioms: [propext, Classical.choice, Quot.sound]
'AQ.C64_weight_error_partial' depends on axioms: [propext, Classical.choice, Quot.sound]
'AQ.C64_expected_weight_partial' depends on axioms: [propext, Classical.choice, Quot.sound]
'AQ.C64_weight_not_conserved' depends on axioms: [propext, Classical.choice, Quot.sound]
'AQ.C64_weight_not_conserved_large_k' depends on axioms: [propext, Classical.choice, Quot.sound]
'AQ.C65_add_buffer_is_repeated_add' depends on axioms: [propext, Classical.choice, Quot.sound]
'AQ.C66_variance_by_compactions' depends on axioms: [propext, Classical.choice, Quot.sound]
'AQ.C66_interpolate_rank_error' depends on axioms: [propext, Classical.choice, Quot.sound]
'AQ.C67_closest_contains_all_nearest_partial' depends on axioms: [propext, Classical.choice, Quot.sound]
'AQ.C67_range_contains_far' depends on axioms: [propext, Classical.choice, Quot.sound]
'AQ.C67_range_misses_tie' depends on axioms: [propext, Classical.choice, Quot.sound]
'AQ.C68_centroid_add' depends on axioms: [propext, Classical.choice, Quot.sound]
'AQ.C69_merge_fits_partial' depends on axioms: [propext, Classical.choice, Quot.sound]
'AQ.C69_tree_ignores_size' depends on axioms: [propext, Classical.choice, Quot.sound]
'AQ.C45_count' depends on axioms: [propext, Classical.choice, Quot.sound]
'AQ.C45_flush_delivers_everything' depends on axioms: [propext, Classical.choice, Quot.sound]
'AQ.C45_query_sees_everything' depends on axioms: [propext, Classical.choice, Quot.sound]
'AQ.C45_zero_threads_panics' depends on axioms: [propext, Classical.choice, Quot.sound]
'AQ.C46_limits_after_flush_partial' depends on axioms: [propext, Classical.choice, Quot.sound]
'AQ.C46_first_flush_exact_partial' depends on axioms: [propext, Classical.choice, Quot.sound]
'AQ.C46_earlier_minimum_forgotten' depends on axioms: [propext, Classical.choice, Quot.sound]
'AQ.C70_flushed_digest_in_data_range' depends on axioms: [propext, Classical.choice, Quot.sound]
'AQ.C70_quantile_is_probability' depends on axioms: [propext, Classical.choice, Quot.sound]
'AQ.C71_buffer_bounded' depends on axioms: [propext, Classical.choice, Quot.sound]
'AQ.C71_any_arithmetic' depends on axioms: [propext, Classical.choice, Quot.sound]
'AQ.C47_transparent' depends on axioms: [propext, Classical.choice, Quot.sound]
'AQ.C47_count' depends on axioms: [propext, Classical.choice, Quot.sound]
'AQ.C47_linear_same_answers' depends on axioms: [propext, Classical.choice, Quot.sound]
'AQ.C48_buffer_bounded' depends on axioms: [propext, Classical.choice, Quot.sound]
'AQ.C48_capacity_zero' depends on axioms: [propext]
'AQ.C72_batches' depends on axioms: [propext, Quot.sound]
'AQ.C53_mirror_symmetric' depends on axioms: [propext, Classical.choice, Quot.sound]
'AQ.C53_mirror_outcomes' depends on axioms: [propext, Classical.choice, Quot.sound]
'AQ.C53_not_symmetric_with_rounding' depends on axioms: [propext, Classical.choice, Quot.sound]
'AQ.C54_quantile_answer' depends on axioms: [propext, Classical.choice, Quot.sound]
'AQ.C54_value_answer' depends on axioms: [propext, Classical.choice, Quot.sound]
'AQ.C54_between_sides' depends on axioms: [propext, Classical.choice, Quot.sound]
'AQ.C54_count' depends on axioms: [propext, Quot.sound]
'AQ.C54_nan_panics' depends on axioms: [propext, Classical.choice, Quot.sound]
'AQ.C54_empty_panics' depends on axioms: [propext, Classical.choice, Quot.sound]
'AQ.C55_mean_of_members' depends on axioms: [propext, Classical.choice, Quot.sound]
'AQ.C55_between_members' depends on axioms: [propext, Classical.choice, Quot.sound]
'AQ.C55_no_members_nan' depends on axioms: [propext, Quot.sound]
'AQ.C55_boxed_members' depends on axioms: [propext, Quot.sound]
'AQ.C56_count_partial' depends on axioms: [propext, Quot.sound]
'AQ.C56_two_members_count_double' depends on axioms: [propext, Classical.choice, Quot.sound]
'AQ.C73_averaging_divides_variance' depends on axioms: [propext, Classical.choice, Quot.sound]
'AQ.C73_averaging_divides_variance_value' depends on axioms: [propext, Classical.choice, Quot.sound]
'AQ.C74_multi_rcsketch' depends on axioms: [propext, Classical.choice, Quot.sound]
'AQ.C75_sym_of_exact_digests' depends on axioms: [propext, Classical.choice, Quot.sound]
'AQ.C49_distributes' depends on axioms: [propext, Classical.choice, Quot.sound]
'AQ.C49_accepts' depends on axioms: [propext, Classical.choice, Quot.sound]
'AQ.C49_count' depends on axioms: [propext, Classical.choice, Quot.sound]
'AQ.C49_limits' depends on axioms: [propext, Classical.choice, Quot.sound]
'AQ.C49_no_digests_drops_data' depends on axioms: [propext, Classical.choice, Quot.sound]
'AQ.C50_weighted_mean_partial' depends on axioms: [propext, Classical.choice, Quot.sound]
'AQ.C50_between_members_partial' depends on axioms: [propext, Classical.choice, Quot.sound]
'AQ.C50_monotone_partial' depends on axioms: [propext, Classical.choice, Quot.sound]
'AQ.C50_empty_member_nan' depends on axioms: [propext, Classical.choice, Quot.sound]
'AQ.C50_single_adds_nan' depends on axioms: [propext, Classical.choice, Quot.sound]
'AQ.C51_value_search' depends on axioms: [propext, Classical.choice, Quot.sound]
'AQ.C51_at_most_20_rounds' depends on axioms: [propext, Classical.choice, Quot.sound]
'AQ.C51_value_inverts_quantile' depends on axioms: [propext, Classical.choice, Quot.sound]
'AQ.C51_value_within_data' depends on axioms: [propext, Classical.choice, Quot.sound]
'AQ.C52_nonempty_accepted_partial' depends on axioms: [propext, Classical.choice, Quot.sound]
'AQ.C52_empty_buffer_panics' depends on axioms: [propext, Quot.sound]
'AQ.C52_buffered_second_query_panics' depends on axioms: [propext, Quot.sound]
'AQ.C76_parallel_linear_exact' depends on axioms: [propext, Classical.choice, Quot.sound]
'AQ.C76_all_members_fed' depends on axioms: [propext, Classical.choice, Quot.sound]
'AQ.C57_k0_inverse' depends on axioms: [propext, Classical.choice, Quot.sound]
'AQ.C57_k1_inverse' depends on axioms: [propext, Classical.choice, Quot.sound]
'AQ.C57_k2_inverse' depends on axioms: [propext, Classical.choice, Quot.sound]
'AQ.C57_k2_ends' depends on axioms: [propext, Classical.choice, Quot.sound]
'AQ.C57_k2_asym_inverse' depends on axioms: [propext, Classical.choice, Quot.sound]
'AQ.C57_k2n_inverse' depends on axioms: [propext, Classical.choice, Quot.sound]
'AQ.C57_k3_inverse' depends on axioms: [propext, Classical.choice, Quot.sound]
'AQ.C58_k0_increasing' depends on axioms: [propext, Classical.choice, Quot.sound]
'AQ.C58_k1_increasing' depends on axioms: [propext, Classical.choice, Quot.sound]
'AQ.C58_k2_increasing' depends on axioms: [propext, Classical.choice, Quot.sound]
'AQ.C58_k2_asym_increasing' depends on axioms: [propext, Classical.choice, Quot.sound]
'AQ.C58_k2n_increasing' depends on axioms: [propext, Classical.choice, Quot.sound]
'AQ.C58_k3_increasing' depends on axioms: [propext, Classical.choice, Quot.sound]
'AQ.C58_inverse_increasing' depends on axioms: [propext, Classical.choice, Quot.sound]
'AQ.C77_k2_size' depends on axioms: [propext, Classical.choice, Quot.sound]
'AQ.C77_k2_asym_size' depends on axioms: [propext, Classical.choice, Quot.sound]
'AQ.C78_k3_size' depends on axioms: [propext, Classical.choice, Quot.sound]
'AQ.C79_k1_size_partial' depends on axioms: [propext, Classical.choice, Quot.sound]
'AQ.C79_k1_upper_tail_unmerged' depends on axioms: [propext, Classical.choice, Quot.sound]
'AQ.C79_k1_size_unbounded' depends on axioms: [propext, Classical.choice, Quot.sound]
'AQ.C80_k2n_size' depends on axioms: [propext, Classical.choice, Quot.sound]
'AQ.C59_bracketed_partial' depends on axioms: [propext, Classical.choice, Quot.sound]
'AQ.C59_rounds_exist' depends on axioms: [propext, Classical.choice, Quot.sound]
'AQ.C59_finds_threshold' depends on axioms: [propext, Classical.choice, Quot.sound]
'AQ.C59_untested_max' depends on axioms: [propext, Classical.choice, Quot.sound]
'AQ.C59_epsilon_not_positive' depends on axioms: [propext, Classical.choice, Quot.sound]
'AQ.C59_f64_does_not_terminate' depends on axioms: [propext, Classical.choice, Quot.sound]
'AQ.C81_samples' depends on axioms: [propext, Quot.sound]
'AQ.C81_returns' depends on axioms: [propext, Quot.sound]
'AQ.C81_exact_digest' depends on axioms: [propext, Quot.sound]
'AQ.C82_ascending' depends on axioms: [propext, Quot.sound]
'AQ.C82_growing_blocks' depends on axioms: [propext, Quot.sound]
'AQ.C83_quantile_error' depends on axioms: [propext, Classical.choice, Quot.sound]
'AQ.C83_quantile_error_k0' depends on axioms: [propext, Classical.choice, Quot.sound]
'AQ.C84_value_error_partial' depends on axioms: [propext, Classical.choice, Quot.sound]
'AQ.C84_value_error_tail' depends on axioms: [propext, Classical.choice, Quot.sound]
'AQ.C85_outward_accuracy_partial' depends on axioms: [propext, Classical.choice, Quot.sound]
'AQ.C85_adds_no_accuracy' depends on axioms: [propext, Classical.choice, Quot.sound]
'AQ.C86_k2_relative' depends on axioms: [propext, Classical.choice, Quot.sound]
'AQ.C86_k3_relative' depends on axioms: [propext, Classical.choice, Quot.sound]
'AQ.C86_k2n_relative' depends on axioms: [propext, Classical.choice, Quot.sound]
'AQ.C87_insertion_safe' depends on axioms: [propext, Classical.choice, Quot.sound]
'AQ.C87_count' depends on axioms: [propext, Classical.choice, Quot.sound]
'AQ.C87_f64' depends on axioms: [propext, Classical.choice, Quot.sound]
'AQ.C87_overflow_panics' depends on axioms: [propext, Classical.choice, Quot.sound]
'AQ.C88_quantile_is_probability' depends on axioms: [propext, Classical.choice, Quot.sound]
'AQ.C88_quantile_outside' depends on axioms: [propext, Classical.choice, Quot.sound]
'AQ.C88_extreme_quantiles' depends on axioms: [propext, Classical.choice, Quot.sound]
'AQ.C88_value_never_panics' depends on axioms: [propext, Classical.choice, Quot.sound]
'AQ.C88_value_nan_panics' depends on axioms: [propext, Classical.choice, Quot.sound]
'AQ.C88_f64' depends on axioms: [propext, Classical.choice, Quot.sound]
'AQ.C89_sequential' depends on axioms: [propext, Quot.sound]
'AQ.C89_schedule_unobservable' depends on axioms: [propext, Quot.sound]
'AQ.C89_any_schedule_in_range' depends on axioms: [propext, Classical.choice, Quot.sound]
'AQ.C89_any_schedule_near' depends on axioms: [propext, Classical.choice, Quot.sound]
'AQ.C89_schedule_observable_f64' depends on axioms: [propext, Classical.choice, Quot.sound]
'AQ.C90_value_search_rounded' depends on axioms: [propext, Classical.choice, Quot.sound]
'AQ.C90_at_most_21_rounds' depends on axioms: [propext, Classical.choice, Quot.sound]
'AQ.C90_equal_items' depends on axioms: [propext, Classical.choice, Quot.sound]
'AQ.C90_linear_f64' depends on axioms: [propext, Classical.choice, Quot.sound]
'AQ.C90_overflow_f64' depends on axioms: [propext, Classical.choice, Quot.sound]
'AQ.C90_wide_range_f64' depends on axioms: [propext, Classical.choice, Quot.sound]
'AQ.C90_tiny_range_never_ends_f64' depends on axioms: [propext, Classical.choice, Quot.sound]
'AQ.C91_near_mean' depends on axioms: [propext, Classical.choice, Quot.sound]
'AQ.C91_between_members' depends on axioms: [propext, Classical.choice, Quot.sound]
'AQ.C91_quantile_in_unit' depends on axioms: [propext, Classical.choice, Quot.sound]
'AQ.C91_outside_members_f64' depends on axioms: [propext, Classical.choice, Quot.sound]
'AQ.C91_overflow_f64' depends on axioms: [propext, Classical.choice, Quot.sound]
'AQ.C92_relative_rank_error' depends on axioms: [propext, Classical.choice, Quot.sound]
'AQ.C92_stored_rank_relative' depends on axioms: [propext, Classical.choice, Quot.sound]
'AQ.C92_relative_rank_error_fast' depends on axioms: [propext, Classical.choice, Quot.sound]
'AQ.C92_stored_rank_relative_fast' depends on axioms: [propext, Classical.choice, Quot.sound]
'AQ.C92_relative_tail' depends on axioms: [propext, Classical.choice, Quot.sound]
'AQ.C92_multi_relative' depends on axioms: [propext, Classical.choice, Quot.sound]
'AQ.C93_tdigest' depends on axioms: [propext]
'AQ.C93_rcsketch' depends on axioms: [propext, Quot.sound]
'AQ.C93_buffered' depends on axioms: [propext, Quot.sound]
'AQ.C93_part' depends on axioms: [propext, Quot.sound]
'AQ.C93_rcsketch_holds_items' depends on axioms: [propext, Quot.sound]
'AQ.C93_sym_partial' does not depend on any axioms
'AQ.C93_sym_exact_iff' depends on axioms: [propext, Classical.choice, Quot.sound]
'AQ.C93_sym_constant' does not depend on any axioms
'AQ.C93_parallel_partial' depends on axioms: [propext]
'AQ.C93_parallel_wrong' depends on axioms: [propext, Quot.sound]
'AQ.C93_rcsketch2_partial' depends on axioms: [propext, Quot.sound]
'AQ.C93_rcsketch2_wrong' depends on axioms: [propext, Quot.sound]
'AQ.C94_value_rank_error' depends on axioms: [propext, Classical.choice, Quot.sound]
'AQ.C94_value_tail' depends on axioms: [propext, Classical.choice, Quot.sound]
'AQ.C94_value_relative' depends on axioms: [propext, Classical.choice, Quot.sound]
'AQ.C94_target' depends on axioms: [propext, Classical.choice, Quot.sound]
'AQ.C95_quantile_low' depends on axioms: [propext, Classical.choice, Quot.sound]
'AQ.C95_quantile_high' depends on axioms: [propext, Classical.choice, Quot.sound]
'AQ.C95_quantile_sure' depends on axioms: [propext, Classical.choice, Quot.sound]
'AQ.C95_value_low' depends on axioms: [propext, Classical.choice, Quot.sound]
'AQ.C95_value_high' depends on axioms: [propext, Classical.choice, Quot.sound]
'AQ.C96_count' depends on axioms: [propext, Classical.choice, Quot.sound]
'AQ.C96_flush' depends on axioms: [propext, Classical.choice, Quot.sound]
'AQ.C96_quantile_is_probability' depends on axioms: [propext, Classical.choice, Quot.sound]
'AQ.C96_value_returns' depends on axioms: [propext, Classical.choice, Quot.sound]
'AQ.C96_f64' depends on axioms: [propext, Classical.choice, Quot.sound]
'AQ.C97_quantile_between' depends on axioms: [propext, Classical.choice, Quot.sound]
'AQ.C97_quantile_is_probability' depends on axioms: [propext, Classical.choice, Quot.sound]
'AQ.C97_value_sides' depends on axioms: [propext, Classical.choice, Quot.sound]
'AQ.C97_median_between' depends on axioms: [propext, Classical.choice, Quot.sound]
'AQ.C97_tdigests' depends on axioms: [propext, Classical.choice, Quot.sound]
'AQ.C97_sketches_sure' depends on axioms: [propext, Classical.choice, Quot.sound]
'AQ.C97_sketches_value_low' depends on axioms: [propext, Classical.choice, Quot.sound]
'AQ.C97_sketches_value_high' depends on axioms: [propext, Classical.choice, Quot.sound]
'AQ.C97_tdigests_f64' depends on axioms: [propext, Classical.choice, Quot.sound]
'AQ.C97_sketches_f64' depends on axioms: [propext, Classical.choice, Quot.sound]
'AQ.C98_rank_error' depends on axioms: [propext, Classical.choice, Quot.sound]
'AQ.C98_mean_squared_error' depends on axioms: [propext, Classical.choice, Quot.sound]
'AQ.C98_rank_error_k' depends on axioms: [propext, Classical.choice, Quot.sound]
'AQ.C98_mean_squared_error_k' depends on axioms: [propext, Classical.choice, Quot.sound]
'AQ.C98_tail_k' depends on axioms: [propext, Classical.choice, Quot.sound]
'AQ.C99_value_rank_error' depends on axioms: [propext, Classical.choice, Quot.sound]
'AQ.C99_value_tail' depends on axioms: [propext, Classical.choice, Quot.sound]
'AQ.C99_value_tail_k' depends on axioms: [propext, Classical.choice, Quot.sound]
'AQ.C100_relative_rank_error' depends on axioms: [propext, Classical.choice, Quot.sound]
'AQ.C100_relative_rank_error_k' depends on axioms: [propext, Classical.choice, Quot.sound]
'AQ.C100_relative_tail' depends on axioms: [propext, Classical.choice, Quot.sound]
'AQ.C100_value_relative' depends on axioms: [propext, Classical.choice, Quot.sound]
'AQ.C101_weight_left' depends on axioms: [propext, Quot.sound]
'AQ.C101_weight_left_round' depends on axioms: [propext, Classical.choice, Quot.sound]
'AQ.C101_k_size' depends on axioms: [propext, Classical.choice, Quot.sound]
'AQ.C101_cluster_rule' depends on axioms: [propext, Classical.choice, Quot.sound]
'AQ.C102_parallel_combines' depends on axioms: [propext, Classical.choice, Quot.sound]
'AQ.C102_parallel_rcsketch' depends on axioms: [propext, Classical.choice, Quot.sound]
'AQ.C102_parallel_rcsketch2' depends on axioms: [propext, Classical.choice, Quot.sound]
'AQ.C103_multi_combines' depends on axioms: [propext, Classical.choice, Quot.sound]
'AQ.C103_multi_rcsketch2' depends on axioms: [propext, Classical.choice, Quot.sound]
'AQ.C103_parallel_multi_rcsketch' depends on axioms: [propext, Classical.choice, Quot.sound]
'AQ.C104_cluster_safe' depends on axioms: [propext, Classical.choice, Quot.sound]
'AQ.C104_growth_limit' depends on axioms: [propext, Classical.choice, Quot.sound]
'AQ.C104_tree_safe' depends on axioms: [propext, Classical.choice, Quot.sound]
'AQ.C104_tree_sorted' depends on axioms: [propext, Classical.choice, Quot.sound]
'AQ.C104_f64' depends on axioms: [propext, Classical.choice, Quot.sound]
'AQ.C105_prefix_sums' depends on axioms: [propext, Classical.choice, Quot.sound]
'AQ.C105_from_centroids' depends on axioms: [propext, Classical.choice, Quot.sound]
'AQ.C105_closest_keys' depends on axioms: [propext, Classical.choice, Quot.sound]
'AQ.C105_f64' depends on axioms: [propext, Classical.choice, Quot.sound]
'AQ.C105_closest_f64' depends on axioms: [propext, Classical.choice, Quot.sound]
'AQ.C105_absorbed' depends on axioms: [propext, Classical.choice, Quot.sound]
'AQ.C105_overflow_finds_nothing' depends on axioms: [propext, Classical.choice, Quot.sound]
'AQ.C106_count_and_weight' depends on axioms: [propext, Classical.choice, Quot.sound]
'AQ.C106_count_and_weight_round' depends on axioms: [propext, Classical.choice, Quot.sound]
'AQ.C106_flushed_weight' depends on axioms: [propext, Classical.choice, Quot.sound]
'AQ.C106_f64' depends on axioms: [propext, Classical.choice, Quot.sound]
'AQ.C107_rcsketch_same_stream' depends on axioms: [propext, Classical.choice, Quot.sound]
'AQ.C107_rcsketch2_same_stream' depends on axioms: [propext, Classical.choice, Quot.sound]
'AQ.C107_buffered_rcsketch' depends on axioms: [propext, Classical.choice, Quot.sound]
'AQ.C107_buffered_rcsketch2' depends on axioms: [propext, Classical.choice, Quot.sound]
'AQ.C107_buffered_rcsketch2_f32' depends on axioms: [propext, Classical.choice, Quot.sound]
'AQ.C108_error_per_call' depends on axioms: [propext, Classical.choice, Quot.sound]
'AQ.C108_value_error_per_call' depends on axioms: [propext, Classical.choice, Quot.sound]
'AQ.C108_error_k0' depends on axioms: [propext, Classical.choice, Quot.sound]
'AQ.C108_error_k0_batches' depends on axioms: [propext, Classical.choice, Quot.sound]
'AQ.C108_value_error_k0' depends on axioms: [propext, Classical.choice, Quot.sound]
'AQ.C109_quantile_error' depends on axioms: [propext, Classical.choice, Quot.sound]
'AQ.C109_value_error' depends on axioms: [propext, Classical.choice, Quot.sound]
'AQ.C110_inner_calls' depends on axioms: [propext, Classical.choice, Quot.sound]
'AQ.C110_tdigest_quantile_error' depends on axioms: [propext, Classical.choice, Quot.sound]
'AQ.C110_buffered_quantile_error' depends on axioms: [propext, Classical.choice, Quot.sound]
'AQ.C110_buffered_value_error' depends on axioms: [propext, Classical.choice, Quot.sound]
'AQ.C111_fresh_cluster_partial' depends on axioms: [propext, Classical.choice, Quot.sound]
'AQ.C111_large_values' depends on axioms: [propext, Classical.choice, Quot.sound]
'AQ.C111_repeat_panics' depends on axioms: [propext, Classical.choice, Quot.sound]
'AQ.C111_distinct_may_panic' depends on axioms: [propext, Classical.choice, Quot.sound]
'AQ.C112_rcsketch_quantile' depends on axioms: [propext, Quot.sound]
'AQ.C112_rcsketch_value' depends on axioms: [propext, Quot.sound]
'AQ.C112_rcsketch2_quantile' depends on axioms: [propext, Quot.sound]
'AQ.C112_rcsketch2_value' depends on axioms: [propext, Quot.sound]
'AQ.C112_linear' depends on axioms: [propext, Classical.choice, Quot.sound]
'AQ.C112_average_neighbour_differs' depends on axioms: [propext, Classical.choice, Quot.sound]
'AQ.C113_state' depends on axioms: [propext, Classical.choice, Quot.sound]
'AQ.C113_quantile' depends on axioms: [propext, Classical.choice, Quot.sound]
'AQ.C113_value_shift' depends on axioms: [propext, Classical.choice, Quot.sound]
'AQ.C113_value_scale' depends on axioms: [propext, Classical.choice, Quot.sound]
'AQ.C113_cluster_quantile' depends on axioms: [propext, Classical.choice, Quot.sound]
'AQ.C113_last_tail_not_scaled' depends on axioms: [propext, Classical.choice, Quot.sound]
'AQ.C113_cluster_shift_differs' depends on axioms: [propext, Classical.choice, Quot.sound]
'AQ.C113_cluster_tree_not_scaled' depends on axioms: [propext, Classical.choice, Quot.sound]
'AQ.C114_insert_pinf' depends on axioms: [propext, Classical.choice, Quot.sound]
'AQ.C114_quantile_pinf' depends on axioms: [propext, Classical.choice, Quot.sound]
'AQ.C114_insert_ninf' depends on axioms: [propext, Classical.choice, Quot.sound]
'AQ.C114_quantile_ninf_nan' depends on axioms: [propext, Classical.choice, Quot.sound]
'AQ.C114_both_signs' depends on axioms: [propext, Classical.choice, Quot.sound]
'AQ.C114_value_nan' depends on axioms: [propext, Classical.choice, Quot.sound]
'AQ.C114_min_of_infinities' depends on axioms: [propext, Classical.choice, Quot.sound]
'AQ.C115_lengths' depends on axioms: [propext, Quot.sound]
'AQ.C115_uniform_range' depends on axioms: [propext, Quot.sound]
'AQ.C115_tan_range' depends on axioms: [propext, Quot.sound]
'AQ.C115_tan_nan' depends on axioms: [propext, Quot.sound]
'AQ.C115_uniform_f64' depends on axioms: [propext, Quot.sound]
'AQ.C115_uniform_f32' depends on axioms: [propext, Classical.choice, Quot.sound]
'AQ.C115_exp_range' depends on axioms: [propext, Quot.sound]
'AQ.C115_exp_f32' depends on axioms: [propext, Classical.choice, Quot.sound]
'AQ.C115_exp_panics' depends on axioms: [propext, Quot.sound]
'AQ.C115_unit_centroids_taken' depends on axioms: [propext, Classical.choice, Quot.sound]
'AQ.C115_random_weights_taken' depends on axioms: [propext, Classical.choice, Quot.sound]
'AQ.C115_zero_weights_poison' depends on axioms: [propext, Quot.sound]
'AQ.C115_one_zero_weight' depends on axioms: [propext, Classical.choice, Quot.sound]
'AQ.C116_rcsketch' depends on axioms: [propext, Classical.choice, Quot.sound]
'AQ.C116_rcsketch_start' depends on axioms: [propext, Classical.choice, Quot.sound]
'AQ.C116_rcsketch2' depends on axioms: [propext, Classical.choice, Quot.sound]
'AQ.C116_rcsketch2_start' depends on axioms: [propext, Classical.choice, Quot.sound]
'AQ.C116_tdigest' depends on axioms: [propext, Classical.choice, Quot.sound]
'AQ.C116_tdigest_first_batch' depends on axioms: [propext, Quot.sound]
'AQ.C116_rcsketch_order_matters' depends on axioms: [propext, Classical.choice, Quot.sound]
'AQ.C116_rcsketch2_order_matters' depends on axioms: [propext, Classical.choice, Quot.sound]
'AQ.C116_tdigest_order_matters' depends on axioms: [propext, Classical.choice, Quot.sound]
'AQ.C117_size_round' depends on axioms: [propext, Classical.choice, Quot.sound]
'AQ.C117_f64' depends on axioms: [propext, Classical.choice, Quot.sound]
'AQ.C117_f32' depends on axioms: [propext, Classical.choice, Quot.sound]
'AQ.C117_f64_one_more' depends on axioms: [propext, Classical.choice, Quot.sound]
'AQ.C118_rank_round' depends on axioms: [propext, Classical.choice, Quot.sound]
'AQ.C118_f64' depends on axioms: [propext, Classical.choice, Quot.sound]
'AQ.C118_f32' depends on axioms: [propext, Classical.choice, Quot.sound]
'AQ.C118_f64_repeated' depends on axioms: [propext, Classical.choice, Quot.sound]
'AQ.C119_round_trip_partial' depends on axioms: [propext, Classical.choice, Quot.sound]
'AQ.C119_right_tail' depends on axioms: [propext, Classical.choice, Quot.sound]
'AQ.C119_right_tail_far' depends on axioms: [propext, Classical.choice, Quot.sound]
'AQ.C120_value_round' depends on axioms: [propext, Classical.choice, Quot.sound]
'AQ.C120_f64' depends on axioms: [propext, Classical.choice, Quot.sound]
'AQ.C120_f32' depends on axioms: [propext, Classical.choice, Quot.sound]
'AQ.RCSketch.C121_size' depends on axioms: [propext, Classical.choice, Quot.sound]
'AQ.RCSketch.C121_transfer' depends on axioms: [propext, Classical.choice, Quot.sound]
'AQ.RCSketch.C121_outcomes' depends on axioms: [propext, Classical.choice, Quot.sound]
'AQ.RCSketch.C121_never_panics' depends on axioms: [propext, Classical.choice, Quot.sound]
'AQ.RCSketch.C121_exact' depends on axioms: [propext, Classical.choice, Quot.sound]
'AQ.RCSketch.C121_f64' depends on axioms: [propext, Classical.choice, Quot.sound]
'AQ.RCSketch.C121_f64_never_panics' depends on axioms: [propext, Classical.choice, Quot.sound]
'AQ.RCSketch.C121_f32' depends on axioms: [propext, Classical.choice, Quot.sound]
'AQ.RCSketch.C121_f32_never_panics' depends on axioms: [propext, Classical.choice, Quot.sound]
'AQ.RCSketch.C122_safe' depends on axioms: [propext, Classical.choice, Quot.sound]
'AQ.RCSketch.C122_safe_average' depends on axioms: [propext, Classical.choice, Quot.sound]
'AQ.RCSketch.C122_panics' depends on axioms: [propext, Classical.choice, Quot.sound]
'AQ.RCSketch.C122_overflow' depends on axioms: [propext, Classical.choice, Quot.sound]
'AQ.RCSketch.C122_declared' depends on axioms: [propext, Classical.choice, Quot.sound]
'AQ.RCSketch.C122_square' depends on axioms: [propext, Classical.choice, Quot.sound]
'AQ.C123_quantile_f64' depends on axioms: [propext, Classical.choice, Quot.sound]
'AQ.C123_value_f64' depends on axioms: [propext, Classical.choice, Quot.sound]
'AQ.C123_quantile_f32' depends on axioms: [propext, Classical.choice, Quot.sound]
'AQ.C123_value_f32' depends on axioms: [propext, Classical.choice, Quot.sound]
'AQ.C123_example' depends on axioms: [propext, Classical.choice, Quot.sound]
'AQ.C124_chunk_length' depends on axioms: [propext, Classical.choice, Quot.sound]
'AQ.C124_add_buffer' depends on axioms: [propext, Classical.choice, Quot.sound]
'AQ.C124_limit' depends on axioms: [propext, Classical.choice, Quot.sound]
'AQ.C125_quantile_f64' depends on axioms: [propext, Classical.choice, Quot.sound]
'AQ.C125_value_f64' depends on axioms: [propext, Classical.choice, Quot.sound]
'AQ.C125_quantile_f32' depends on axioms: [propext, Classical.choice, Quot.sound]
'AQ.C125_value_f32' depends on axioms: [propext, Classical.choice, Quot.sound]
'AQ.C125_quantile_round' depends on axioms: [propext, Classical.choice, Quot.sound]
'AQ.C125_value_round' depends on axioms: [propext, Classical.choice, Quot.sound]
'AQ.C125_example' depends on axioms: [propext, Classical.choice, Quot.sound]
'AQ.C126_k0' depends on axioms: [propext, Classical.choice, Quot.sound]
'AQ.C126_k2' depends on axioms: [propext, Classical.choice, Quot.sound]
'AQ.C126_k2_asym' depends on axioms: [propext, Classical.choice, Quot.sound]
'AQ.C126_k3' depends on axioms: [propext, Classical.choice, Quot.sound]
'AQ.C126_round' depends on axioms: [propext, Classical.choice, Quot.sound]
'AQ.C126_f64' depends on axioms: [propext, Classical.choice, Quot.sound]
'AQ.C126_f32' depends on axioms: [propext, Classical.choice, Quot.sound]
'AQ.C126_example' depends on axioms: [propext, Classical.choice, Quot.sound]
'AQ.C127_quantile_round' depends on axioms: [propext, Classical.choice, Quot.sound]
'AQ.C127_value_round' depends on axioms: [propext, Classical.choice, Quot.sound]
'AQ.C127_unmerged_round' depends on axioms: [propext, Classical.choice, Quot.sound]
'AQ.C127_f64' depends on axioms: [propext, Classical.choice, Quot.sound]
'AQ.C127_f32' depends on axioms: [propext, Classical.choice, Quot.sound]
'AQ.C127_example' depends on axioms: [propext, Classical.choice, Quot.sound]
'AQ.C127_value_not_linear' depends on axioms: [propext, Classical.choice, Quot.sound]
'AQ.C127_merged_differs' depends on axioms: [propext, Classical.choice, Quot.sound]
'AQ.C128_quantile_low' depends on axioms: [propext, Classical.choice, Quot.sound]
'AQ.C128_quantile_high' depends on axioms: [propext, Classical.choice, Quot.sound]
'AQ.C128_quantile_sure' depends on axioms: [propext, Classical.choice, Quot.sound]
'AQ.C128_value_low' depends on axioms: [propext, Classical.choice, Quot.sound]
'AQ.C128_value_high' depends on axioms: [propext, Classical.choice, Quot.sound]
'AQ.C128_example' depends on axioms: [propext, Classical.choice, Quot.sound]
'AQ.C129_quantile_f64' depends on axioms: [propext, Classical.choice, Quot.sound]
'AQ.C129_value_f64' depends on axioms: [propext, Classical.choice, Quot.sound]
'AQ.C129_quantile_f32' depends on axioms: [propext, Classical.choice, Quot.sound]
'AQ.C129_value_f32' depends on axioms: [propext, Classical.choice, Quot.sound]
'AQ.C129_example' depends on axioms: [propext, Classical.choice, Quot.sound]
'AQ.C129_full_differs' depends on axioms: [propext, Classical.choice, Quot.sound]
'AQ.RCSketch.C130_never_panics' depends on axioms: [propext, Classical.choice, Quot.sound]
'AQ.RCSketch.C130_missing_level_panics' depends on axioms: [propext, Quot.sound]
'AQ.RCSketch.C130_weight' depends on axioms: [propext, Classical.choice, Quot.sound]
'AQ.RCSketch.C130_rank_error' depends on axioms: [propext, Classical.choice, Quot.sound]
'AQ.RCSketch.C130_stored' depends on axioms: [propext, Classical.choice, Quot.sound]
'AQ.RCSketch.C130_unbiased' depends on axioms: [propext, Classical.choice, Quot.sound]
'AQ.RCSketch.C130_mean_squared_error' depends on axioms: [propext, Classical.choice, Quot.sound]
'AQ.RCSketch.C130_count' depends on axioms: [propext, Classical.choice, Quot.sound]
'AQ.RCSketch.C130_interpolate_rank' depends on axioms: [propext, Classical.choice, Quot.sound]
'AQ.RCSketch.C130_example' depends on axioms: [propext, Classical.choice, Quot.sound]
'AQ.RCSketch.C130_quantile_above_one' depends on axioms: [propext, Classical.choice, Quot.sound]
'AQ.RCSketch.C131_never_panics' depends on axioms: [propext, Classical.choice, Quot.sound]
'AQ.RCSketch.C131_count' depends on axioms: [propext, Classical.choice, Quot.sound]
'AQ.RCSketch.C131_weight' depends on axioms: [propext, Classical.choice, Quot.sound]
'AQ.RCSketch.C131_rank_error' depends on axioms: [propext, Classical.choice, Quot.sound]
'AQ.RCSketch.C131_interpolate_rank' depends on axioms: [propext, Classical.choice, Quot.sound]
'AQ.RCSketch.C131_unbiased' depends on axioms: [propext, Classical.choice, Quot.sound]
'AQ.RCSketch.C131_mean_squared_error' depends on axioms: [propext, Classical.choice, Quot.sound]
'AQ.RCSketch.C131_example' depends on axioms: [propext, Classical.choice, Quot.sound]
'AQ.RCSketch.C132_unbiased' depends on axioms: [propext, Classical.choice, Quot.sound]
'AQ.RCSketch.C132_mean_squared_error' depends on axioms: [propext, Classical.choice, Quot.sound]
'AQ.RCSketch.C132_tail' depends on axioms: [propext, Classical.choice, Quot.sound]
'AQ.RCSketch.C132_example' depends on axioms: [propext, Classical.choice, Quot.sound]
'AQ.MergeTree.C133_count' depends on axioms: [propext, Classical.choice, Quot.sound]
'AQ.MergeTree.C133_weight' depends on axioms: [propext, Classical.choice, Quot.sound]
'AQ.MergeTree.C133_interpolate_rank' depends on axioms: [propext, Classical.choice, Quot.sound]
'AQ.MergeTree.C133_never_panics' depends on axioms: [propext, Classical.choice, Quot.sound]
'AQ.MergeTree.C133_unbiased' depends on axioms: [propext, Classical.choice, Quot.sound]
'AQ.MergeTree.C133_mean_squared_error' depends on axioms: [propext, Classical.choice, Quot.sound]
'AQ.MergeTree.C133_tail' depends on axioms: [propext, Classical.choice, Quot.sound]
'AQ.MergeTree.C133_shards' depends on axioms: [propext, Classical.choice, Quot.sound]
'AQ.MergeTree.C133_example' depends on axioms: [propext, Classical.choice, Quot.sound]
'AQ.MergeTree.C133_shards_example' depends on axioms: [propext, Classical.choice, Quot.sound]
'AQ.C134_count_and_size' depends on axioms: [propext, Classical.choice, Quot.sound]
'AQ.C134_update_sections_idle' depends on axioms: [propext, Classical.choice, Quot.sound]
'AQ.C134_never_panics' depends on axioms: [propext, Classical.choice, Quot.sound]
'AQ.C134_never_panics_average' depends on axioms: [propext, Classical.choice, Quot.sound]
'AQ.C134_levels' depends on axioms: [propext, Classical.choice, Quot.sound]
'AQ.C134_rank_queries_never_panic' depends on axioms: [propext, Classical.choice, Quot.sound]
'AQ.C134_grow_breaks_rank_queries' depends on axioms: [propext, Classical.choice, Quot.sound]
'AQ.C134_rank_error_bound' depends on axioms: [propext, Classical.choice, Quot.sound]
'AQ.C134_rank_unbiased' depends on axioms: [propext, Classical.choice, Quot.sound]
'AQ.C134_mean_squared_error' depends on axioms: [propext, Classical.choice, Quot.sound]
'AQ.C134_interpolate_unbiased' depends on axioms: [propext, Classical.choice, Quot.sound]
'AQ.C134_interpolate_squared_error' depends on axioms: [propext, Classical.choice, Quot.sound]
'AQ.C134_low_ranks_exact' depends on axioms: [propext, Classical.choice, Quot.sound]
'AQ.C134_example' depends on axioms: [propext, Classical.choice, Quot.sound]
'AQ.C135_conserved' depends on axioms: [propext, Classical.choice, Quot.sound]
'AQ.C135_count' depends on axioms: [propext, Classical.choice, Quot.sound]
'AQ.C135_queries' depends on axioms: [propext, Classical.choice, Quot.sound]
'AQ.C135_error_k0' depends on axioms: [propext, Classical.choice, Quot.sound]
'AQ.C135_value_error_k0' depends on axioms: [propext, Classical.choice, Quot.sound]
'AQ.C135_shards' depends on axioms: [propext, Classical.choice, Quot.sound]
'AQ.C135_size_k0' depends on axioms: [propext, Classical.choice, Quot.sound]
'AQ.C135_size_k2_k3' depends on axioms: [propext, Classical.choice, Quot.sound]
'AQ.C135_round' depends on axioms: [propext, Classical.choice, Quot.sound]
'AQ.C135_f64' depends on axioms: [propext, Classical.choice, Quot.sound]
'AQ.C135_extremes_lost' depends on axioms: [propext, Classical.choice, Quot.sound]
'AQ.C135_example' depends on axioms: [propext, Classical.choice, Quot.sound]
'AQ.C136_quantile_round' depends on axioms: [propext, Classical.choice, Quot.sound]
'AQ.C136_value_round' depends on axioms: [propext, Classical.choice, Quot.sound]
'AQ.C136_quantile_f64' depends on axioms: [propext, Classical.choice, Quot.sound]
'AQ.C136_value_f64' depends on axioms: [propext, Classical.choice, Quot.sound]
'AQ.C136_shards_f64' depends on axioms: [propext, Classical.choice, Quot.sound]
'AQ.C136_quantile_f32' depends on axioms: [propext, Classical.choice, Quot.sound]
'AQ.C136_value_f32' depends on axioms: [propext, Classical.choice, Quot.sound]
'AQ.C136_example' depends on axioms: [propext, Classical.choice, Quot.sound]
'AQ.C137_k2' depends on axioms: [propext, Classical.choice, Quot.sound]
'AQ.C137_k3' depends on axioms: [propext, Classical.choice, Quot.sound]
'AQ.C137_history_k2' depends on axioms: [propext, Classical.choice, Quot.sound]
'AQ.C137_history_k3' depends on axioms: [propext, Classical.choice, Quot.sound]
'AQ.C137_example' depends on axioms: [propext, Classical.choice, Quot.sound]
'AQ.MergeTree.C138_value_returns' depends on axioms: [propext, Classical.choice, Quot.sound]
'AQ.MergeTree.C138_value_tail' depends on axioms: [propext, Classical.choice, Quot.sound]
'AQ.MergeTree.C138_quantile_eq' depends on axioms: [propext, Classical.choice, Quot.sound]
'AQ.MergeTree.C138_quantile_tail' depends on axioms: [propext, Classical.choice, Quot.sound]
'AQ.MergeTree.C138_shards' depends on axioms: [propext, Classical.choice, Quot.sound]
'AQ.MergeTree.C138_beyond' depends on axioms: [propext, Classical.choice, Quot.sound]
'AQ.MergeTree.C138_shards_example' depends on axioms: [propext, Classical.choice, Quot.sound]
'AQ.MergeTree.C138_example' depends on axioms: [propext, Classical.choice, Quot.sound]
'AQ.C139_error' depends on axioms: [propext, Classical.choice, Quot.sound]
'AQ.C139_value' depends on axioms: [propext, Classical.choice, Quot.sound]
'AQ.C139_shards_k1' depends on axioms: [propext, Classical.choice, Quot.sound]
'AQ.C139_history_k1' depends on axioms: [propext, Classical.choice, Quot.sound]
'AQ.C139_example' depends on axioms: [propext, Classical.choice, Quot.sound]
'AQ.C140_k1' depends on axioms: [propext, Classical.choice, Quot.sound]
'AQ.C140_example' depends on axioms: [propext, Classical.choice, Quot.sound]
'AQ.C141_k1' depends on axioms: [propext, Classical.choice, Quot.sound]
'AQ.C141_history_k1' depends on axioms: [propext, Classical.choice, Quot.sound]
'AQ.C141_example' depends on axioms: [propext, Classical.choice, Quot.sound]
'AQ.C142_quantile' depends on axioms: [propext, Classical.choice, Quot.sound]
'AQ.C142_value' depends on axioms: [propext, Classical.choice, Quot.sound]
'AQ.C142_example' depends on axioms: [propext, Classical.choice, Quot.sound]
'AQ.C143_quantile' depends on axioms: [propext, Classical.choice, Quot.sound]
'AQ.C143_value' depends on axioms: [propext, Classical.choice, Quot.sound]
'AQ.C143_example' depends on axioms: [propext, Classical.choice, Quot.sound]
'AQ.C144_quantile' depends on axioms: [propext, Classical.choice, Quot.sound]
'AQ.C144_value' depends on axioms: [propext, Classical.choice, Quot.sound]
'AQ.C144_example' depends on axioms: [propext, Classical.choice, Quot.sound]
'AQ.C145_k2_asym' depends on axioms: [propext, Classical.choice, Quot.sound]
'AQ.C145_history' depends on axioms: [propext, Classical.choice, Quot.sound]
'AQ.C145_example' depends on axioms: [propext, Classical.choice, Quot.sound]
'AQ.C146_state' depends on axioms: [propext, Classical.choice, Quot.sound]
'AQ.C146_quantile' depends on axioms: [propext, Classical.choice, Quot.sound]
'AQ.C146_value' depends on axioms: [propext, Classical.choice, Quot.sound]
'AQ.C146_example' depends on axioms: [propext, Classical.choice, Quot.sound]
'AQ.C147_quantile' depends on axioms: [propext, Classical.choice, Quot.sound]
'AQ.C147_value' depends on axioms: [propext, Classical.choice, Quot.sound]
'AQ.C147_example' depends on axioms: [propext, Classical.choice, Quot.sound]
'AQ.C148_ranks_add' depends on axioms: [propext, Classical.choice, Quot.sound]
'AQ.C148_tdigests' depends on axioms: [propext, Classical.choice, Quot.sound]
'AQ.C148_example' depends on axioms: [propext, Classical.choice, Quot.sound]
'AQ.C149_relative' depends on axioms: [propext, Classical.choice, Quot.sound]
'AQ.C149_example' depends on axioms: [propext, Classical.choice, Quot.sound]
'AQ.C150_quantile' depends on axioms: [propext, Classical.choice, Quot.sound]
'AQ.C150_value' depends on axioms: [propext, Classical.choice, Quot.sound]
'AQ.C150_example' depends on axioms: [propext, Classical.choice, Quot.sound]
'AQ.C151_quantile' depends on axioms: [propext, Classical.choice, Quot.sound]
'AQ.C151_value' depends on axioms: [propext, Classical.choice, Quot.sound]
'AQ.C151_example' depends on axioms: [propext, Classical.choice, Quot.sound]
'AQ.C152_quantile' depends on axioms: [propext, Classical.choice, Quot.sound]
'AQ.C152_value' depends on axioms: [propext, Classical.choice, Quot.sound]
'AQ.C152_example' depends on axioms: [propext, Classical.choice, Quot.sound]
'AQ.C153_ranks_average' depends on axioms: [propext, Classical.choice, Quot.sound]
'AQ.C153_values_between' depends on axioms: [propext, Classical.choice, Quot.sound]
'AQ.C153_tdigests' depends on axioms: [propext, Classical.choice, Quot.sound]
'AQ.C153_example' depends on axioms: [propext, Classical.choice, Quot.sound]
'AQ.C154_quantile' depends on axioms: [propext, Classical.choice, Quot.sound]
'AQ.C154_value' depends on axioms: [propext, Classical.choice, Quot.sound]
'AQ.C154_tdigests' depends on axioms: [propext, Classical.choice, Quot.sound]
'AQ.C154_example' depends on axioms: [propext, Classical.choice, Quot.sound]
'AQ.C155_error' depends on axioms: [propext, Classical.choice, Quot.sound]
'AQ.C155_value' depends on axioms: [propext, Classical.choice, Quot.sound]
'AQ.C155_history_k2n' depends on axioms: [propext, Classical.choice, Quot.sound]
'AQ.C155_example' depends on axioms: [propext, Classical.choice, Quot.sound]
'AQ.C156_counters' depends on axioms: [propext, Quot.sound]
'AQ.C156_less_than_sum' depends on axioms: [propext, Classical.choice, Quot.sound]
'AQ.C156_insert' depends on axioms: [propext, Classical.choice, Quot.sound]
'AQ.C156_closest_keys' depends on axioms: [propext, Classical.choice, Quot.sound]
'AQ.C156_logarithmic' depends on axioms: [propext, Classical.choice, Quot.sound]
'AQ.C156_increasing_order' depends on axioms: [propext, Classical.choice, Quot.sound]
'AQ.C156_example' depends on axioms: [propext, Classical.choice, Quot.sound]
'AQ.MergeTree.C157_tail' depends on axioms: [propext, Classical.choice, Quot.sound]
'AQ.MergeTree.C157_plain' depends on axioms: [propext, Classical.choice, Quot.sound]
'AQ.MergeTree.C157_shards' depends on axioms: [propext, Classical.choice, Quot.sound]
'AQ.MergeTree.C157_example' depends on axioms: [propext, Classical.choice, Quot.sound]
'AQ.MergeTree.C158_all_ranks' depends on axioms: [propext, Classical.choice, Quot.sound]
'AQ.MergeTree.C158_all_values' depends on axioms: [propext, Classical.choice, Quot.sound]
'AQ.MergeTree.C158_plain' depends on axioms: [propext, Classical.choice, Quot.sound]
'AQ.MergeTree.C158_plain_values' depends on axioms: [propext, Classical.choice, Quot.sound]
'AQ.MergeTree.C158_example' depends on axioms: [propext, Classical.choice, Quot.sound]
'AQ.C159_tail' depends on axioms: [propext, Classical.choice, Quot.sound]
'AQ.C159_tail_k' depends on axioms: [propext, Classical.choice, Quot.sound]
'AQ.C159_example' depends on axioms: [propext, Classical.choice, Quot.sound]
'AQ.C160_all_ranks' depends on axioms: [propext, Classical.choice, Quot.sound]
'AQ.C160_all_values' depends on axioms: [propext, Classical.choice, Quot.sound]
'AQ.C160_all_ranks_k' depends on axioms: [propext, Classical.choice, Quot.sound]
'AQ.C160_all_values_k' depends on axioms: [propext, Classical.choice, Quot.sound]
'AQ.C160_example' depends on axioms: [propext, Classical.choice, Quot.sound]
'AQ.C161_multi' depends on axioms: [propext, Classical.choice, Quot.sound]
'AQ.C161_multi_tail' depends on axioms: [propext, Classical.choice, Quot.sound]
'AQ.C161_multi_rcsketch' depends on axioms: [propext, Classical.choice, Quot.sound]
'AQ.C161_multi_rcsketch2' depends on axioms: [propext, Classical.choice, Quot.sound]
'AQ.Spec.Concentrates.tail' depends on axioms: [propext, Classical.choice, Quot.sound]
'AQ.rc_concentrates' depends on axioms: [propext, Classical.choice, Quot.sound]
'AQ.rc2_concentrates' depends on axioms: [propext, Classical.choice, Quot.sound]
'AQ.C161_example' depends on axioms: [propext, Classical.choice, Quot.sound]
'AQ.C162_parallel' depends on axioms: [propext, Classical.choice, Quot.sound]
'AQ.C162_parallel_rcsketch' depends on axioms: [propext, Classical.choice, Quot.sound]
'AQ.C162_parallel_rcsketch2' depends on axioms: [propext, Classical.choice, Quot.sound]
'AQ.parallel_signs' depends on axioms: [propext, Classical.choice, Quot.sound]
'AQ.C162_example' depends on axioms: [propext, Classical.choice, Quot.sound]
'AQ.C163_relative_tail' depends on axioms: [propext, Classical.choice, Quot.sound]
'AQ.C163_relative_tail_fast' depends on axioms: [propext, Classical.choice, Quot.sound]
'AQ.C163_example' depends on axioms: [propext, Classical.choice, Quot.sound]
'AQ.RCSketch.relative_tail' depends on axioms: [propext, Classical.choice, Quot.sound]
'AQ.C164_all_ranks' depends on axioms: [propext, Classical.choice, Quot.sound]
'AQ.C164_all_values' depends on axioms: [propext, Classical.choice, Quot.sound]
'AQ.C164_example' depends on axioms: [propext, Classical.choice, Quot.sound]
'AQ.all_ranks_rel' depends on axioms: [propext, Classical.choice, Quot.sound]
'AQ.C165_relative_tail' depends on axioms: [propext, Classical.choice, Quot.sound]
'AQ.C165_example' depends on axioms: [propext, Classical.choice, Quot.sound]
'AQ.RCSketch2.relative_tail2' depends on axioms: [propext, Classical.choice, Quot.sound]
'AQ.calm_relative' depends on axioms: [propext, Classical.choice, Quot.sound]
'AQ.C166_all_ranks' depends on axioms: [propext, Classical.choice, Quot.sound]
'AQ.C166_all_values' depends on axioms: [propext, Classical.choice, Quot.sound]
'AQ.C166_example' depends on axioms: [propext, Classical.choice, Quot.sound]
'AQ.all_ranks_rel' depends on axioms: [propext, Classical.choice, Quot.sound]
'AQ.C167_all_quantiles' depends on axioms: [propext, Classical.choice, Quot.sound]
'AQ.C167_all_values' depends on axioms: [propext, Classical.choice, Quot.sound]
'AQ.C167_all_quantiles_rc2' depends on axioms: [propext, Classical.choice, Quot.sound]
'AQ.C167_all_values_rc2' depends on axioms: [propext, Classical.choice, Quot.sound]
'AQ.C167_example' depends on axioms: [propext, Classical.choice, Quot.sound]
'AQ.sym_union' depends on axioms: [propext, Classical.choice, Quot.sound]
'AQ.sym_accurate' depends on axioms: [propext, Classical.choice, Quot.sound]
'AQ.sym_values' depends on axioms: [propext, Classical.choice, Quot.sound]
'AQ.C168_multi' depends on axioms: [propext, Classical.choice, Quot.sound]
'AQ.C168_multi_values' depends on axioms: [propext, Classical.choice, Quot.sound]
'AQ.C168_parallel' depends on axioms: [propext, Classical.choice, Quot.sound]
'AQ.C168_parallel_values' depends on axioms: [propext, Classical.choice, Quot.sound]
'AQ.C168_multi_rcsketch' depends on axioms: [propext, Classical.choice, Quot.sound]
'AQ.C168_multi_rcsketch2' depends on axioms: [propext, Classical.choice, Quot.sound]
'AQ.C168_parallel_rcsketch' depends on axioms: [propext, Classical.choice, Quot.sound]
'AQ.C168_parallel_rcsketch2' depends on axioms: [propext, Classical.choice, Quot.sound]
'AQ.C168_example' depends on axioms: [propext, Classical.choice, Quot.sound]
'AQ.multi_relQ' depends on axioms: [propext, Classical.choice, Quot.sound]
'AQ.multi_values' depends on axioms: [propext, Classical.choice, Quot.sound]
'AQ.parallel_relQ' depends on axioms: [propext, Classical.choice, Quot.sound]
'AQ.parallel_values' depends on axioms: [propext, Classical.choice, Quot.sound]
'AQ.multi_union' depends on axioms: [propext, Classical.choice, Quot.sound]
'AQ.feed_union' depends on axioms: [propext, Classical.choice, Quot.sound]
'AQ.C169_multi' depends on axioms: [propext, Classical.choice, Quot.sound]
'AQ.C169_parallel' depends on axioms: [propext, Classical.choice, Quot.sound]
'AQ.C169_sym' depends on axioms: [propext, Classical.choice, Quot.sound]
'AQ.rc_relSure' depends on axioms: [propext, Classical.choice, Quot.sound]
'AQ.rc2_relSure' depends on axioms: [propext, Classical.choice, Quot.sound]
'AQ.C169_example' depends on axioms: [propext, Classical.choice, Quot.sound]
'AQ.C169_unequal_members' depends on axioms: [propext, Classical.choice, Quot.sound]
'AQ.C170_buffered' depends on axioms: [propext, Classical.choice, Quot.sound]
'AQ.C170_buffered_rcsketch' depends on axioms: [propext, Classical.choice, Quot.sound]
'AQ.C170_buffered_rcsketch2' depends on axioms: [propext, Classical.choice, Quot.sound]
'AQ.C170_buffered_values' depends on axioms: [propext, Classical.choice, Quot.sound]
'AQ.C170_buffered_rcsketch_values' depends on axioms: [propext, Classical.choice, Quot.sound]
'AQ.C170_buffered_rcsketch2_values' depends on axioms: [propext, Classical.choice, Quot.sound]
'AQ.C170_example' depends on axioms: [propext, Classical.choice, Quot.sound]
'AQ.C171_quantile' depends on axioms: [propext, Classical.choice, Quot.sound]
'AQ.C171_value_shift' depends on axioms: [propext, Classical.choice, Quot.sound]
'AQ.C171_value_scale' depends on axioms: [propext, Classical.choice, Quot.sound]
'AQ.C171_last_tail_not_scaled' depends on axioms: [propext, Classical.choice, Quot.sound]
'AQ.C172_answers' depends on axioms: [propext, Quot.sound]
'AQ.C172_multi' depends on axioms: [propext, Quot.sound]
'AQ.C172_buffered' depends on axioms: [propext, Quot.sound]
'AQ.C172_parallel' depends on axioms: [propext, Classical.choice, Quot.sound]
'AQ.C172_sym' depends on axioms: [propext, Classical.choice, Quot.sound]
'AQ.C172_boxed' depends on axioms: [propext, Quot.sound]
'AQ.C172_tdigest' depends on axioms: [propext, Classical.choice, Quot.sound]
'AQ.C172_partdigest' depends on axioms: [propext, Classical.choice, Quot.sound]
'AQ.C172_rcsketch' depends on axioms: [propext, Classical.choice, Quot.sound]
'AQ.C172_rcsketch2' depends on axioms: [propext, Classical.choice, Quot.sound]
'AQ.C172_linear' depends on axioms: [propext, Classical.choice, Quot.sound]
'AQ.C172_deepNest' depends on axioms: [propext, Classical.choice, Quot.sound]
'AQ.C172_sketchNest' depends on axioms: [propext, Classical.choice, Quot.sound]
'AQ.C172_value_search_depends_on_origin' depends on axioms: [propext, Classical.choice, Quot.sound]
'AQ.C173_answers' depends on axioms: [propext, Quot.sound]
'AQ.C173_multi' depends on axioms: [propext, Classical.choice, Quot.sound]
'AQ.C173_buffered' depends on axioms: [propext, Quot.sound]
'AQ.C173_sym' depends on axioms: [propext, Classical.choice, Quot.sound]
'AQ.C173_boxed' depends on axioms: [propext, Quot.sound]
'AQ.C173_rcsketch' depends on axioms: [propext, Classical.choice, Quot.sound]
'AQ.C173_rcsketch2' depends on axioms: [propext, Classical.choice, Quot.sound]
'AQ.C173_linear' depends on axioms: [propext, Classical.choice, Quot.sound]
'AQ.C173_sketchNest' depends on axioms: [propext, Classical.choice, Quot.sound]
'AQ.C173_mixed' depends on axioms: [propext, Classical.choice, Quot.sound]
'AQ.C173_empty_tdigest_not_shifted' depends on axioms: [propext, Classical.choice, Quot.sound]
'AQ.C174_tdigest' depends on axioms: [propext, Classical.choice, Quot.sound]
'AQ.C174_buffered' depends on axioms: [propext, Classical.choice, Quot.sound]
'AQ.C174_partdigest' depends on axioms: [propext, Classical.choice, Quot.sound]
'AQ.C174_equal_means_may_change' depends on axioms: [propext, Classical.choice, Quot.sound]
'AQ.C175_answers' depends on axioms: [propext, Quot.sound]
'AQ.C175_multi' depends on axioms: [propext, Quot.sound]
'AQ.C175_sym' depends on axioms: [propext, Quot.sound]
'AQ.C175_boxed' depends on axioms: [propext, Quot.sound]
'AQ.C175_tdigest' depends on axioms: [propext, Classical.choice, Quot.sound]
'AQ.C175_partdigest' depends on axioms: [propext, Classical.choice, Quot.sound]
'AQ.C175_rcsketch' depends on axioms: [propext, Quot.sound]
'AQ.C175_rcsketch2' depends on axioms: [propext, Quot.sound]
'AQ.C175_nest' depends on axioms: [propext, Classical.choice, Quot.sound]
'AQ.C175_buffered' depends on axioms: [propext, Quot.sound]
'AQ.C175_buffered_nest' depends on axioms: [propext, Quot.sound]
'AQ.C175_buffered_nest2' depends on axioms: [propext, Quot.sound]
'AQ.C175_linear_sorts' depends on axioms: [propext, Classical.choice, Quot.sound] 
