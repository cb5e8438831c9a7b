{
 "claims": [
  {
   "property": "C01",
   "status": "proved",
   "theorems": [
    "AQ.C01_linear_value_is_order_statistic",
    "AQ.C01_linear_exact",
    "AQ.C01_history_returns",
    "AQ.C01_unrepresentable_length_panics"
   ],
   "note": "Any monotone rounding for which the item count is representable; the witness shows the query panics otherwise."
  },
  {
   "property": "C02",
   "status": "proved",
   "theorems": [
    "AQ.C02_linear_quantile_formula",
    "AQ.C02_linear_quantile_monotone"
   ],
   "note": "Any monotone rounding exact on half-integers up to n."
  },
  {
   "property": "C03",
   "status": "proved",
   "theorems": [
    "AQ.C03_linear_order_irrelevant"
   ],
   "note": "Any rounding."
  },
  {
   "property": "C04",
   "status": "proved",
   "theorems": [
    "AQ.C04_weighted_average_bounds",
    "AQ.C04_weighted_average_exact"
   ],
   "note": "Any rounding, any weights."
  },
  {
   "property": "C05",
   "status": "proved",
   "theorems": [
    "AQ.C05_count_exact"
   ],
   "note": "Every history (no range restriction), every coin sequence, any rounding."
  },
  {
   "property": "C06",
   "status": "proved",
   "theorems": [
    "AQ.C06_buffers_below_capacity"
   ],
   "note": "Every history that returns."
  },
  {
   "property": "C07",
   "status": "proved",
   "theorems": [
    "AQ.C07_insertions_never_panic",
    "AQ.C07_insertions_never_panic_average",
    "AQ.C07_queries_never_panic"
   ],
   "note": "n < 2^32, any non-NaN data. Queries: even k (for odd k the level count is not bounded by 31 and the i32 level weight may overflow). AverageNeighbour: any binary floating-point rounding, finite items whose double does not overflow."
  },
  {
   "property": "C08",
   "status": "partial",
   "theorems": [
    "AQ.C08_weight_conserved_partial",
    "AQ.C08_top_is_one_partial",
    "AQ.C08_top_is_one_average_partial",
    "AQ.C08_odd_k_weight_not_conserved"
   ],
   "note": "Proved for even k; false for odd k (witness new(4,1) with 4 items)."
  },
  {
   "property": "C09",
   "status": "proved",
   "theorems": [
    "AQ.C09_rank_error_bound",
    "AQ.C09_rank_error_bound_any_method",
    "AQ.C09_counters"
   ],
   "note": "Default compaction: any data and rounding. AverageNeighbour: any binary floating-point rounding, finite items whose double does not overflow."
  },
  {
   "property": "C10",
   "status": "proved",
   "theorems": [
    "AQ.C10_rank_unbiased",
    "AQ.C10_interpolate_rank_unbiased"
   ],
   "note": "All k for the weighted rank of the stored items; for even k also for the returned value of interpolate_rank (for odd k interpolate_rank is only shown to agree when it does not overflow)."
  },
  {
   "property": "C11",
   "status": "proved",
   "theorems": [
    "AQ.C11_low_ranks_exact"
   ],
   "note": "Default/fast compaction."
  },
  {
   "property": "C12",
   "status": "proved",
   "theorems": [
    "AQ.C12_quantile_monotone"
   ],
   "note": "Any sketch state, any monotone rounding."
  },
  {
   "property": "C13",
   "status": "proved",
   "theorems": [
    "AQ.C13_value_is_input",
    "AQ.C13_value_in_range",
    "AQ.C13_average_overflow"
   ],
   "note": "AverageNeighbour: any binary floating-point rounding, finite items whose double does not overflow; C13_average_overflow shows that otherwise the answer may be infinite."
  },
  {
   "property": "C14",
   "status": "proved",
   "theorems": [
    "AQ.C14_value_monotone"
   ],
   "note": "Any sketch state, any monotone rounding."
  },
  {
   "property": "C15",
   "status": "proved",
   "theorems": [
    "AQ.C15_memory_logarithmic"
   ],
   "note": "Even k; holds even beyond the declared input length."
  },
  {
   "property": "C16",
   "status": "proved",
   "theorems": [
    "AQ.C16_add_buffer_is_repeated_add"
   ],
   "note": "Equality of programs: same coins, same result."
  },
  {
   "property": "C17",
   "status": "proved",
   "theorems": [
    "AQ.C17_value_quantile_consistent",
    "AQ.C17_rank_is_interpolate_rank"
   ],
   "note": "At most 31 levels, stored weight exactly representable."
  },
  {
   "property": "C18",
   "status": "proved",
   "theorems": [
    "AQ.C18_count_and_size_exact"
   ],
   "note": "Any section sizes, any history."
  },
  {
   "property": "C19",
   "status": "proved",
   "theorems": [
    "AQ.C19_insertions_never_panic",
    "AQ.C19_insertions_never_panic_average",
    "AQ.C19_insertions_never_panic_real",
    "AQ.C19_rank_queries_never_panic",
    "AQ.C19_value_queries_never_panic",
    "AQ.C19_k1_panics",
    "AQ.C19_insertions_never_panic_f32",
    "AQ.C19_queries_never_panic_f32"
   ],
   "note": "Section sizes are an arbitrary function satisfying SecOK, proved for exact arithmetic and k >= 4, and for the f32 arithmetic of the code and 4 <= k < 2^24 (queries: 33 <= k). The witness shows that k = 1 panics after 19 items."
  },
  {
   "property": "C20",
   "status": "proved",
   "theorems": [
    "AQ.C20_stored_below_capacity"
   ],
   "note": "Strictly below."
  },
  {
   "property": "C21",
   "status": "proved",
   "theorems": [
    "AQ.C21_rank_error_bound",
    "AQ.C21_rank_error_bound_any_method"
   ],
   "note": "Any section sizes. AverageNeighbour: any binary floating-point rounding, finite items whose double does not overflow."
  },
  {
   "property": "C22",
   "status": "proved",
   "theorems": [
    "AQ.C22_rank_unbiased",
    "AQ.C22_interpolate_rank_unbiased",
    "AQ.C22_interpolate_rank_unbiased_f32"
   ],
   "note": "Any section sizes with SecOK; also with the f32 section sizes of the code."
  },
  {
   "property": "C23",
   "status": "proved",
   "theorems": [
    "AQ.C23_low_ranks_exact",
    "AQ.C23_low_ranks_exact_f32"
   ],
   "note": "P = 3 * initial section size, half the capacity of a new level; no limit on the number of items."
  },
  {
   "property": "C24",
   "status": "proved",
   "theorems": [
    "AQ.C24_quantile_monotone",
    "AQ.C24_value_monotone",
    "AQ.C24_value_is_input"
   ],
   "note": ""
  },
  {
   "property": "C25",
   "status": "proved",
   "theorems": [
    "AQ.C25_prefix_sums",
    "AQ.C25_duplicate_key_panics"
   ],
   "note": "Exact arithmetic for the sums."
  },
  {
   "property": "C26",
   "status": "proved",
   "theorems": [
    "AQ.C26_contents",
    "AQ.C26_delete_missing_key_miscounts"
   ],
   "note": "Any rounding. Deleting a key that is not stored miscounts size()."
  },
  {
   "property": "C27",
   "status": "partial",
   "theorems": [
    "AQ.C27_prefix_sums_after_deletions_partial",
    "AQ.C27_prefix_sums_wrong_after_delete",
    "AQ.C27_prefix_sums_too_small_after_delete"
   ],
   "note": "False as stated: delete never updates the sums of the nodes it passes; the witnesses show sums too large and too small. Proved for deletions of the currently largest key."
  },
  {
   "property": "C28",
   "status": "proved",
   "theorems": [
    "AQ.C28_closest_keys"
   ],
   "note": "Exact arithmetic, finite keys."
  },
  {
   "property": "C29",
   "status": "proved",
   "theorems": [
    "AQ.C29_total_weight",
    "AQ.C29_count"
   ],
   "note": "Any scale functions (arbitrary total functions); count for fewer than 2^64 items."
  },
  {
   "property": "C30",
   "status": "partial",
   "theorems": [
    "AQ.C30_min_max_partial",
    "AQ.C30_min_max_first_batch_partial",
    "AQ.C30_max_exceeds_data_with_rounding"
   ],
   "note": "Proved in exact arithmetic, and for the first batch under any rounding. False under f64 rounding over several batches (witness 0.1,0.1,0.1 then 0.05): a rounded merged mean may exceed the data and is then taken as the maximum."
  },
  {
   "property": "C31",
   "status": "proved",
   "theorems": [
    "AQ.C31_sorted_in_range",
    "AQ.C31_unsorted_with_rounding"
   ],
   "note": "Exact arithmetic; with f64 rounding centroids can be out of order (C31_unsorted_with_rounding)."
  },
  {
   "property": "C32",
   "status": "proved",
   "theorems": [
    "AQ.C32_mass"
   ],
   "note": ""
  },
  {
   "property": "C33",
   "status": "proved",
   "theorems": [
    "AQ.C33_merge_joins_neighbours"
   ],
   "note": "Also for digests whose centroids are not sorted."
  },
  {
   "property": "C34",
   "status": "proved",
   "theorems": [
    "AQ.C34_quantile_is_probability",
    "AQ.C34_empty_is_nan"
   ],
   "note": "Exact arithmetic, centroid weights at least 1, any scale functions."
  },
  {
   "property": "C35",
   "status": "partial",
   "theorems": [
    "AQ.C35_quantile_monotone_partial",
    "AQ.C35_single_batch_monotone_partial",
    "AQ.C35_not_monotone_at_last_mean",
    "AQ.C35_not_monotone_below_first_mean"
   ],
   "note": "False as stated (two witnesses). Monotone away from the two defects: the value exactly at the last mean, and unit-weight end centroids that are not at the extremes."
  },
  {
   "property": "C36",
   "status": "partial",
   "theorems": [
    "AQ.C36_value_in_range_partial",
    "AQ.C36_value_below_min",
    "AQ.C36_value_nan"
   ],
   "note": "False as stated: the formula for the upper half of the last centroid lacks the factor (max - mean); estimated median -0.7 for 0,0.1,0.2,0.3 and NaN for 0,1. In range outside that part, and inside it when the spread is at least 1 and the last weight is not 2."
  },
  {
   "property": "C37",
   "status": "proved",
   "theorems": [
    "AQ.C37_extreme_quantiles"
   ],
   "note": "Exact arithmetic, weights at least 1, total below 2^64."
  },
  {
   "property": "C38",
   "status": "proved",
   "theorems": [
    "AQ.C38_value_never_panics",
    "AQ.C38_empty_returns_max_value"
   ],
   "note": "Exact arithmetic."
  },
  {
   "property": "C39",
   "status": "proved",
   "theorems": [
    "AQ.C39_uncompressed_is_exact"
   ],
   "note": "Exact arithmetic; any history whose digest has as many centroids as items."
  },
  {
   "property": "C40",
   "status": "proved",
   "theorems": [
    "AQ.C40_size_bounded"
   ],
   "note": "Exact arithmetic, any history of add, add_buffer and add_centroid_buffer."
  },
  {
   "property": "C41",
   "status": "proved",
   "theorems": [
    "AQ.C41_cluster_history",
    "AQ.C41_cluster_size",
    "AQ.C41_cluster_unsorted"
   ],
   "note": "Exact arithmetic, growth limits that denote a number of centroids. C41_cluster_unsorted records that add_cluster may leave the centroids unsorted."
  },
  {
   "property": "C42",
   "status": "proved",
   "theorems": [
    "AQ.C42_closest_bounds",
    "AQ.C42_closest_contains_nearest"
   ],
   "note": "Any monotone rounding."
  },
  {
   "property": "C43",
   "status": "proved",
   "theorems": [
    "AQ.C43_tree_history",
    "AQ.C43_tree_sorted",
    "AQ.C43_tree_size",
    "AQ.C43_tree_duplicate_panics"
   ],
   "note": "Exact arithmetic, all shuffles; about the executions that return."
  },
  {
   "property": "C44",
   "status": "partial",
   "theorems": [
    "AQ.C44_value_monotone_partial",
    "AQ.C44_value_not_monotone"
   ],
   "note": "False as stated, same defect as C36."
  },
  {
   "property": "C60",
   "status": "proved",
   "theorems": [
    "AQ.C60_tdigest_nan_panics",
    "AQ.C60_single_nan_accepted",
    "AQ.C60_linear_value_nan_panics",
    "AQ.C60_compact_nan_panics",
    "AQ.C60_rc_value_nan_panics",
    "AQ.C60_rc2_compact_nan_panics",
    "AQ.C60_rc2_value_nan_panics"
   ],
   "note": ""
  },
  {
   "property": "C61",
   "status": "proved",
   "theorems": [
    "AQ.C61_variance_by_compactions",
    "AQ.C61_mean_squared_error",
    "AQ.C61_interpolate_rank_error"
   ],
   "note": ""
  },
  {
   "property": "C62",
   "status": "proved",
   "theorems": [
    "AQ.C62_rank_error_tail",
    "AQ.C62_interpolate_rank_tail"
   ],
   "note": "Chebyshev from C61."
  },
  {
   "property": "C63",
   "status": "proved",
   "theorems": [
    "AQ.C63_a_priori_rank_error"
   ],
   "note": ""
  },
  {
   "property": "C64",
   "status": "partial",
   "theorems": [
    "AQ.C64_weight_error_partial",
    "AQ.C64_expected_weight_partial",
    "AQ.C64_weight_not_conserved",
    "AQ.C64_weight_not_conserved_large_k"
   ],
   "note": "False as stated (witnesses k = 1 with 6 items, k = 4 with 50 items). What holds: bounded deviation, and exact expectation."
  },
  {
   "property": "C65",
   "status": "proved",
   "theorems": [
    "AQ.C65_add_buffer_is_repeated_add"
   ],
   "note": "Equality of programs: same coins, same result."
  },
  {
   "property": "C66",
   "status": "proved",
   "theorems": [
    "AQ.C66_variance_by_compactions",
    "AQ.C66_interpolate_rank_error"
   ],
   "note": ""
  },
  {
   "property": "C67",
   "status": "partial",
   "theorems": [
    "AQ.C67_closest_contains_all_nearest_partial",
    "AQ.C67_range_contains_far",
    "AQ.C67_range_misses_tie"
   ],
   "note": "False as stated: the code compares signed distances."
  },
  {
   "property": "C68",
   "status": "proved",
   "theorems": [
    "AQ.C68_centroid_add"
   ],
   "note": "Exact arithmetic."
  },
  {
   "property": "C69",
   "status": "partial",
   "theorems": [
    "AQ.C69_merge_fits_partial",
    "AQ.C69_tree_ignores_size"
   ],
   "note": "Proved for add_cluster while the growth limit is not reached; false for add_cluster_tree, which passes the merged mean as the weight."
  },
  {
   "property": "C45",
   "status": "proved",
   "theorems": [
    "AQ.C45_count",
    "AQ.C45_flush_delivers_everything",
    "AQ.C45_query_sees_everything",
    "AQ.C45_zero_threads_panics"
   ],
   "note": "Exact arithmetic, finite items, fewer than 2^64 of them, any scale functions."
  },
  {
   "property": "C46",
   "status": "partial",
   "theorems": [
    "AQ.C46_limits_after_flush_partial",
    "AQ.C46_first_flush_exact_partial",
    "AQ.C46_earlier_minimum_forgotten"
   ],
   "note": "False as stated: a flush overwrites min and max with those of the flushed items and the centroid means. Exact for the first flush."
  },
  {
   "property": "C70",
   "status": "proved",
   "theorems": [
    "AQ.C70_flushed_digest_in_data_range",
    "AQ.C70_quantile_is_probability"
   ],
   "note": "Exact arithmetic."
  },
  {
   "property": "C71",
   "status": "proved",
   "theorems": [
    "AQ.C71_buffer_bounded",
    "AQ.C71_any_arithmetic"
   ],
   "note": ""
  },
  {
   "property": "C47",
   "status": "proved",
   "theorems": [
    "AQ.C47_transparent",
    "AQ.C47_count",
    "AQ.C47_linear_same_answers"
   ],
   "note": "Any wrapped digest that answers alike after equal batches (C47_transparent), LinearDigest in particular."
  },
  {
   "property": "C48",
   "status": "proved",
   "theorems": [
    "AQ.C48_buffer_bounded",
    "AQ.C48_capacity_zero"
   ],
   "note": ""
  },
  {
   "property": "C72",
   "status": "proved",
   "theorems": [
    "AQ.C72_batches"
   ],
   "note": ""
  },
  {
   "property": "C53",
   "status": "proved",
   "theorems": [
    "AQ.C53_mirror_symmetric",
    "AQ.C53_mirror_outcomes",
    "AQ.C53_not_symmetric_with_rounding"
   ],
   "note": "Exact arithmetic; also for randomised sub-digests (equality of distributions). With f64 the answers can differ in the last bits (witness)."
  },
  {
   "property": "C54",
   "status": "proved",
   "theorems": [
    "AQ.C54_quantile_answer",
    "AQ.C54_value_answer",
    "AQ.C54_between_sides",
    "AQ.C54_count",
    "AQ.C54_nan_panics",
    "AQ.C54_empty_panics"
   ],
   "note": "Exact arithmetic. The quantile query panics when a side answers NaN, e.g. when empty."
  },
  {
   "property": "C55",
   "status": "proved",
   "theorems": [
    "AQ.C55_mean_of_members",
    "AQ.C55_between_members",
    "AQ.C55_no_members_nan",
    "AQ.C55_boxed_members"
   ],
   "note": "Exact arithmetic."
  },
  {
   "property": "C56",
   "status": "partial",
   "theorems": [
    "AQ.C56_count_partial",
    "AQ.C56_two_members_count_double"
   ],
   "note": "False as stated: count() is the number of items times the number of members."
  },
  {
   "property": "C73",
   "status": "proved",
   "theorems": [
    "AQ.C73_averaging_divides_variance",
    "AQ.C73_averaging_divides_variance_value"
   ],
   "note": "Exact arithmetic."
  },
  {
   "property": "C74",
   "status": "proved",
   "theorems": [
    "AQ.C74_multi_rcsketch"
   ],
   "note": "Exact arithmetic in the queries."
  },
  {
   "property": "C75",
   "status": "proved",
   "theorems": [
    "AQ.C75_sym_of_exact_digests"
   ],
   "note": "Exact arithmetic."
  },
  {
   "property": "C49",
   "status": "proved",
   "theorems": [
    "AQ.C49_distributes",
    "AQ.C49_accepts",
    "AQ.C49_count",
    "AQ.C49_limits",
    "AQ.C49_no_digests_drops_data"
   ],
   "note": "Any sub-digests. With no sub-digests the data is dropped silently (witness)."
  },
  {
   "property": "C50",
   "status": "partial",
   "theorems": [
    "AQ.C50_weighted_mean_partial",
    "AQ.C50_between_members_partial",
    "AQ.C50_monotone_partial",
    "AQ.C50_empty_member_nan",
    "AQ.C50_single_adds_nan"
   ],
   "note": "False as stated: one empty sub-digest that answers NaN makes every answer NaN (5 items over 4 LinearDigests; items added one at a time). Holds in exact arithmetic when all sub-digests answer with numbers."
  },
  {
   "property": "C51",
   "status": "proved",
   "theorems": [
    "AQ.C51_value_search",
    "AQ.C51_at_most_20_rounds",
    "AQ.C51_value_inverts_quantile",
    "AQ.C51_value_within_data"
   ],
   "note": "Sub-digests that answer with numbers; exact arithmetic, but C51_value_within_data also in binary floating point for items that can be doubled."
  },
  {
   "property": "C52",
   "status": "partial",
   "theorems": [
    "AQ.C52_nonempty_accepted_partial",
    "AQ.C52_empty_buffer_panics",
    "AQ.C52_buffered_second_query_panics"
   ],
   "note": "False as stated: the empty buffer always panics. Non-empty buffers are accepted."
  },
  {
   "property": "C76",
   "status": "proved",
   "theorems": [
    "AQ.C76_parallel_linear_exact",
    "AQ.C76_all_members_fed"
   ],
   "note": "Exact arithmetic."
  },
  {
   "property": "C57",
   "status": "proved",
   "theorems": [
    "AQ.C57_k0_inverse",
    "AQ.C57_k1_inverse",
    "AQ.C57_k2_inverse",
    "AQ.C57_k2_ends",
    "AQ.C57_k2_asym_inverse",
    "AQ.C57_k2n_inverse",
    "AQ.C57_k3_inverse"
   ],
   "note": "Real arithmetic with IEEE special values; C57_k2_ends: k2 at the end points (NaN at 1)."
  },
  {
   "property": "C58",
   "status": "proved",
   "theorems": [
    "AQ.C58_k0_increasing",
    "AQ.C58_k1_increasing",
    "AQ.C58_k2_increasing",
    "AQ.C58_k2_asym_increasing",
    "AQ.C58_k2n_increasing",
    "AQ.C58_k3_increasing",
    "AQ.C58_inverse_increasing"
   ],
   "note": "Real arithmetic with IEEE special values, positive normaliser."
  },
  {
   "property": "C77",
   "status": "proved",
   "theorems": [
    "AQ.C77_k2_size",
    "AQ.C77_k2_asym_size"
   ],
   "note": "Real arithmetic, weights at least 1."
  },
  {
   "property": "C78",
   "status": "proved",
   "theorems": [
    "AQ.C78_k3_size"
   ],
   "note": "Real arithmetic, weights at least 1."
  },
  {
   "property": "C79",
   "status": "partial",
   "theorems": [
    "AQ.C79_k1_size_partial",
    "AQ.C79_k1_upper_tail_unmerged",
    "AQ.C79_k1_size_unbounded"
   ],
   "note": "The claim is false: inv_k1 wraps around above the top, so items in the upper tail are never merged (C79_k1_upper_tail_unmerged) and 4m items leave m+1 centroids with factor 3 (C79_k1_size_unbounded). Proved instead: at most d + 3 + (1-cos(2 pi/d))/2 * W centroids for total weight W."
  },
  {
   "property": "C80",
   "status": "proved",
   "theorems": [
    "AQ.C80_k2n_size"
   ],
   "note": "Real arithmetic, weights at least 1."
  },
  {
   "property": "C59",
   "status": "partial",
   "theorems": [
    "AQ.C59_bracketed_partial",
    "AQ.C59_rounds_exist",
    "AQ.C59_finds_threshold",
    "AQ.C59_untested_max",
    "AQ.C59_epsilon_not_positive",
    "AQ.C59_f64_does_not_terminate"
   ],
   "note": "Proved in exact arithmetic, for arbitrary random tests. In f64 the search may not terminate although epsilon > 0 (C59_f64_does_not_terminate); the comment that the result has passed is wrong when nothing passes (C59_untested_max)."
  },
  {
   "property": "C81",
   "status": "proved",
   "theorems": [
    "AQ.C81_samples",
    "AQ.C81_returns",
    "AQ.C81_exact_digest"
   ],
   "note": "Any arithmetic."
  },
  {
   "property": "C82",
   "status": "proved",
   "theorems": [
    "AQ.C82_ascending",
    "AQ.C82_growing_blocks"
   ],
   "note": "Exact arithmetic."
  },
  {
   "property": "C83",
   "status": "proved",
   "theorems": [
    "AQ.C83_quantile_error",
    "AQ.C83_quantile_error_k0"
   ],
   "note": "Exact arithmetic."
  },
  {
   "property": "C84",
   "status": "partial",
   "theorems": [
    "AQ.C84_value_error_partial",
    "AQ.C84_value_error_tail"
   ],
   "note": "False as stated: right of the middle of the last centroid the answer may lie below all items (C84_value_error_tail). Proved everywhere else, exact arithmetic."
  },
  {
   "property": "C85",
   "status": "partial",
   "theorems": [
    "AQ.C85_outward_accuracy_partial",
    "AQ.C85_adds_no_accuracy"
   ],
   "note": "False as stated: for every e > 0 and d >= 4 there are arbitrarily long sequences of items in [0,2] whose insertion one by one makes the digest answer every value query below 1-1/d with one of the lowest e*n items (C85_adds_no_accuracy). Proved for batches none of whose items falls between earlier ones."
  },
  {
   "property": "C86",
   "status": "proved",
   "theorems": [
    "AQ.C86_k2_relative",
    "AQ.C86_k3_relative",
    "AQ.C86_k2n_relative"
   ],
   "note": "Real arithmetic, compression factor at most 10^5."
  },
  {
   "property": "C87",
   "status": "proved",
   "theorems": [
    "AQ.C87_insertion_safe",
    "AQ.C87_count",
    "AQ.C87_f64",
    "AQ.C87_overflow_panics"
   ],
   "note": "Any monotone rounding satisfying Spec.Roomy, which f64 does for 2^52 items up to 2^970 and f32 for 2^23 items up to 2^103 (f64_roomy, f32_roomy). C87_overflow_panics: without the bound on the magnitude insertion can panic."
  },
  {
   "property": "C88",
   "status": "proved",
   "theorems": [
    "AQ.C88_quantile_is_probability",
    "AQ.C88_quantile_outside",
    "AQ.C88_extreme_quantiles",
    "AQ.C88_value_never_panics",
    "AQ.C88_value_nan_panics",
    "AQ.C88_f64"
   ],
   "note": "Arithmetic as for C87. About the range of value answers see C36."
  },
  {
   "property": "C89",
   "status": "proved",
   "theorems": [
    "AQ.C89_sequential",
    "AQ.C89_schedule_unobservable",
    "AQ.C89_any_schedule_in_range",
    "AQ.C89_any_schedule_near",
    "AQ.C89_schedule_observable_f64"
   ],
   "note": "In f64 the last places do depend on the schedule (C89_schedule_observable_f64)."
  },
  {
   "property": "C90",
   "status": "proved",
   "theorems": [
    "AQ.C90_value_search_rounded",
    "AQ.C90_at_most_21_rounds",
    "AQ.C90_equal_items",
    "AQ.C90_linear_f64",
    "AQ.C90_overflow_f64",
    "AQ.C90_wide_range_f64",
    "AQ.C90_tiny_range_never_ends_f64"
   ],
   "note": "Any binary rounding arithmetic with the room said by Spec.SearchRoom, established for f64; each restriction on the data is shown to be needed by a witness."
  },
  {
   "property": "C91",
   "status": "proved",
   "theorems": [
    "AQ.C91_near_mean",
    "AQ.C91_between_members",
    "AQ.C91_quantile_in_unit",
    "AQ.C91_outside_members_f64",
    "AQ.C91_overflow_f64"
   ],
   "note": "Monotone rounding with the error bound Spec.RelErr, established for f64. The answer may leave the interval of the members' answers by rounding (C91_outside_members_f64)."
  },
  {
   "property": "C92",
   "status": "proved",
   "theorems": [
    "AQ.C92_relative_rank_error",
    "AQ.C92_stored_rank_relative",
    "AQ.C92_relative_rank_error_fast",
    "AQ.C92_stored_rank_relative_fast",
    "AQ.C92_relative_tail",
    "AQ.C92_multi_relative"
   ],
   "note": "MultiDigest version in exact arithmetic."
  },
  {
   "property": "C93",
   "status": "partial",
   "theorems": [
    "AQ.C93_tdigest",
    "AQ.C93_rcsketch",
    "AQ.C93_buffered",
    "AQ.C93_part",
    "AQ.C93_rcsketch_holds_items",
    "AQ.C93_sym_partial",
    "AQ.C93_sym_exact_iff",
    "AQ.C93_sym_constant",
    "AQ.C93_parallel_partial",
    "AQ.C93_parallel_wrong",
    "AQ.C93_rcsketch2_partial",
    "AQ.C93_rcsketch2_wrong"
   ],
   "note": "False as stated for three types: SymDigest leaves out everything its members own (C93_sym_exact_iff, C93_sym_constant), ParallelDigest counts the inline part of each member twice (C93_parallel_wrong), RCSketch2 counts four bytes too many per counter slot (C93_rcsketch2_wrong). Exact for TDigest, RCSketch, and BufferedDigest and ParTDigest over exact digests."
  },
  {
   "property": "C94",
   "status": "proved",
   "theorems": [
    "AQ.C94_value_rank_error",
    "AQ.C94_value_tail",
    "AQ.C94_value_relative",
    "AQ.C94_target"
   ],
   "note": "Any rounding that represents integers up to N exactly; t is q*N as computed, in [0,N] for monotone rounding (C94_target)."
  },
  {
   "property": "C95",
   "status": "proved",
   "theorems": [
    "AQ.C95_quantile_low",
    "AQ.C95_quantile_high",
    "AQ.C95_quantile_sure",
    "AQ.C95_value_low",
    "AQ.C95_value_high"
   ],
   "note": "Exact arithmetic in the queries."
  },
  {
   "property": "C96",
   "status": "proved",
   "theorems": [
    "AQ.C96_count",
    "AQ.C96_flush",
    "AQ.C96_quantile_is_probability",
    "AQ.C96_value_returns",
    "AQ.C96_f64"
   ],
   "note": "Any monotone rounding arithmetic with room for the items; f64 as an instance."
  },
  {
   "property": "C97",
   "status": "proved",
   "theorems": [
    "AQ.C97_quantile_between",
    "AQ.C97_quantile_is_probability",
    "AQ.C97_value_sides",
    "AQ.C97_median_between",
    "AQ.C97_tdigests",
    "AQ.C97_sketches_sure",
    "AQ.C97_sketches_value_low",
    "AQ.C97_sketches_value_high",
    "AQ.C97_tdigests_f64",
    "AQ.C97_sketches_f64"
   ],
   "note": "Monotone (binary) rounding; f64 as an instance."
  },
  {
   "property": "C98",
   "status": "proved",
   "theorems": [
    "AQ.C98_rank_error",
    "AQ.C98_mean_squared_error",
    "AQ.C98_rank_error_k",
    "AQ.C98_mean_squared_error_k",
    "AQ.C98_tail_k"
   ],
   "note": "Section sizes: exact (k >= 256) or in f32 (264 <= k < 2^24); the general forms for any sizes with Spec.Rc2Size."
  },
  {
   "property": "C99",
   "status": "proved",
   "theorems": [
    "AQ.C99_value_rank_error",
    "AQ.C99_value_tail",
    "AQ.C99_value_tail_k"
   ],
   "note": "Any rounding that represents integers up to 2N exactly; t is q*N as computed, in [0,N] for monotone rounding (C94_target)."
  },
  {
   "property": "C100",
   "status": "proved",
   "theorems": [
    "AQ.C100_relative_rank_error",
    "AQ.C100_relative_rank_error_k",
    "AQ.C100_relative_tail",
    "AQ.C100_value_relative"
   ],
   "note": "Section sizes: exact (k >= 256) or in f32 (264 <= k < 2^24). Value queries: any rounding that represents integers up to 2N exactly."
  },
  {
   "property": "C101",
   "status": "proved",
   "theorems": [
    "AQ.C101_weight_left",
    "AQ.C101_weight_left_round",
    "AQ.C101_k_size",
    "AQ.C101_cluster_rule"
   ],
   "note": "add_cluster only; add_cluster_tree passes the mean as the weight (C69_tree_ignores_size)."
  },
  {
   "property": "C102",
   "status": "proved",
   "theorems": [
    "AQ.C102_parallel_combines",
    "AQ.C102_parallel_rcsketch",
    "AQ.C102_parallel_rcsketch2"
   ],
   "note": "Spec.Estimates states count, absence of panics, bias and mean squared error; Spec.Estimates.tail is the Chebyshev bound."
  },
  {
   "property": "C103",
   "status": "proved",
   "theorems": [
    "AQ.C103_multi_combines",
    "AQ.C103_multi_rcsketch2",
    "AQ.C103_parallel_multi_rcsketch"
   ],
   "note": ""
  },
  {
   "property": "C104",
   "status": "proved",
   "theorems": [
    "AQ.C104_cluster_safe",
    "AQ.C104_growth_limit",
    "AQ.C104_tree_safe",
    "AQ.C104_tree_sorted",
    "AQ.C104_f64"
   ],
   "note": ""
  },
  {
   "property": "C105",
   "status": "proved",
   "theorems": [
    "AQ.C105_prefix_sums",
    "AQ.C105_from_centroids",
    "AQ.C105_closest_keys",
    "AQ.C105_f64",
    "AQ.C105_closest_f64",
    "AQ.C105_absorbed",
    "AQ.C105_overflow_finds_nothing"
   ],
   "note": ""
  },
  {
   "property": "C106",
   "status": "proved",
   "theorems": [
    "AQ.C106_count_and_weight",
    "AQ.C106_count_and_weight_round",
    "AQ.C106_flushed_weight",
    "AQ.C106_f64"
   ],
   "note": ""
  },
  {
   "property": "C107",
   "status": "proved",
   "theorems": [
    "AQ.C107_rcsketch_same_stream",
    "AQ.C107_rcsketch2_same_stream",
    "AQ.C107_buffered_rcsketch",
    "AQ.C107_buffered_rcsketch2",
    "AQ.C107_buffered_rcsketch2_f32"
   ],
   "note": ""
  },
  {
   "property": "C108",
   "status": "proved",
   "theorems": [
    "AQ.C108_error_per_call",
    "AQ.C108_value_error_per_call",
    "AQ.C108_error_k0",
    "AQ.C108_error_k0_batches",
    "AQ.C108_value_error_k0"
   ],
   "note": ""
  },
  {
   "property": "C109",
   "status": "proved",
   "theorems": [
    "AQ.C109_quantile_error",
    "AQ.C109_value_error"
   ],
   "note": ""
  },
  {
   "property": "C110",
   "status": "proved",
   "theorems": [
    "AQ.C110_inner_calls",
    "AQ.C110_tdigest_quantile_error",
    "AQ.C110_buffered_quantile_error",
    "AQ.C110_buffered_value_error"
   ],
   "note": ""
  },
  {
   "property": "C111",
   "status": "partial",
   "theorems": [
    "AQ.C111_fresh_cluster_partial",
    "AQ.C111_large_values",
    "AQ.C111_repeat_panics",
    "AQ.C111_distinct_may_panic"
   ],
   "note": "False as stated (witnesses C111_repeat_panics, C111_distinct_may_panic). Proved: one fresh cluster among means at least 1/1000 apart; exact criterion under k0 for large values."
  },
  {
   "property": "C112",
   "status": "proved",
   "theorems": [
    "AQ.C112_rcsketch_quantile",
    "AQ.C112_rcsketch_value",
    "AQ.C112_rcsketch2_quantile",
    "AQ.C112_rcsketch2_value",
    "AQ.C112_linear",
    "AQ.C112_average_neighbour_differs"
   ],
   "note": "Equality of programs, so coin for coin."
  },
  {
   "property": "C113",
   "status": "proved",
   "theorems": [
    "AQ.C113_state",
    "AQ.C113_quantile",
    "AQ.C113_value_shift",
    "AQ.C113_value_scale",
    "AQ.C113_cluster_quantile",
    "AQ.C113_last_tail_not_scaled",
    "AQ.C113_cluster_shift_differs",
    "AQ.C113_cluster_tree_not_scaled"
   ],
   "note": "The exceptions named in the statement are each shown by a witness."
  },
  {
   "property": "C114",
   "status": "proved",
   "theorems": [
    "AQ.C114_insert_pinf",
    "AQ.C114_quantile_pinf",
    "AQ.C114_insert_ninf",
    "AQ.C114_quantile_ninf_nan",
    "AQ.C114_both_signs",
    "AQ.C114_value_nan",
    "AQ.C114_min_of_infinities"
   ],
   "note": "The failures named in the statement are each shown by a witness."
  },
  {
   "property": "C115",
   "status": "proved",
   "theorems": [
    "AQ.C115_lengths",
    "AQ.C115_uniform_range",
    "AQ.C115_tan_range",
    "AQ.C115_tan_nan",
    "AQ.C115_uniform_f64",
    "AQ.C115_uniform_f32",
    "AQ.C115_exp_range",
    "AQ.C115_exp_f32",
    "AQ.C115_exp_panics",
    "AQ.C115_unit_centroids_taken",
    "AQ.C115_random_weights_taken",
    "AQ.C115_zero_weights_poison",
    "AQ.C115_one_zero_weight"
   ],
   "note": "The samples are parameters of the model; probabilities are not modelled. The TDigest totals are for exact arithmetic, C115_zero_weights_poison holds in any."
  },
  {
   "property": "C116",
   "status": "proved",
   "theorems": [
    "AQ.C116_rcsketch",
    "AQ.C116_rcsketch_start",
    "AQ.C116_rcsketch2",
    "AQ.C116_rcsketch2_start",
    "AQ.C116_tdigest",
    "AQ.C116_tdigest_first_batch",
    "AQ.C116_rcsketch_order_matters",
    "AQ.C116_rcsketch2_order_matters",
    "AQ.C116_tdigest_order_matters"
   ],
   "note": "Sketches: equality of the programs, random bit for random bit, by a relation (same levels up to order within each) preserved by every operation. TDigest: equal sets of outcomes, because the unstable sort can return every sorted permutation. The last three theorems are the witnesses that order matters beyond that."
  },
  {
   "property": "C117",
   "status": "proved",
   "theorems": [
    "AQ.C117_size_round",
    "AQ.C117_f64",
    "AQ.C117_f32",
    "AQ.C117_f64_one_more"
   ],
   "note": "f64/f32 theorems are for a natural factor and unit weights; C117_size_round is the general form (any factor at least 1, integer weights)."
  },
  {
   "property": "C118",
   "status": "proved",
   "theorems": [
    "AQ.C118_rank_round",
    "AQ.C118_f64",
    "AQ.C118_f32",
    "AQ.C118_f64_repeated"
   ],
   "note": "C118_rank_round: any scale functions, M the heaviest centroid of the digest; the f64/f32 forms use C117 for M."
  },
  {
   "property": "C119",
   "status": "partial",
   "theorems": [
    "AQ.C119_round_trip_partial",
    "AQ.C119_right_tail",
    "AQ.C119_right_tail_far"
   ],
   "note": "The right tail is excluded because the statement is false there (missing factor in est_value_at_quantile); C119_right_tail gives the exact answer, C119_right_tail_far a witness."
  },
  {
   "property": "C120",
   "status": "proved",
   "theorems": [
    "AQ.C120_value_round",
    "AQ.C120_f64",
    "AQ.C120_f32"
   ],
   "note": "C120_value_round: any scale functions, M the heaviest centroid of the digest, every q in [0,1] outside the outer half of the last centroid (there the answer is wrong already in exact arithmetic, C35/C119)."
  },
  {
   "property": "C121",
   "status": "proved",
   "theorems": [
    "AQ.RCSketch.C121_size",
    "AQ.RCSketch.C121_transfer",
    "AQ.RCSketch.C121_outcomes",
    "AQ.RCSketch.C121_never_panics",
    "AQ.RCSketch.C121_exact",
    "AQ.RCSketch.C121_f64",
    "AQ.RCSketch.C121_f64_never_panics",
    "AQ.RCSketch.C121_f32",
    "AQ.RCSketch.C121_f32_never_panics"
   ],
   "note": "log2 is a parameter (its accuracy is not specified by the standard library); log2Near_exists and crudeLog2_like show the hypotheses are met."
  },
  {
   "property": "C122",
   "status": "proved",
   "theorems": [
    "AQ.RCSketch.C122_safe",
    "AQ.RCSketch.C122_safe_average",
    "AQ.RCSketch.C122_panics",
    "AQ.RCSketch.C122_overflow",
    "AQ.RCSketch.C122_declared",
    "AQ.RCSketch.C122_square"
   ],
   "note": "Debug overflow checks as everywhere in the model; extends C07 beyond n < 2^32."
  },
  {
   "property": "C123",
   "status": "proved",
   "theorems": [
    "AQ.C123_quantile_f64",
    "AQ.C123_value_f64",
    "AQ.C123_quantile_f32",
    "AQ.C123_value_f32",
    "AQ.C123_example"
   ],
   "note": "BufferedDigest.flush_batches is the general form (any scale functions, any arithmetic with monotone rounding); the right tail is excluded for values as in C120."
  },
  {
   "property": "C124",
   "status": "proved",
   "theorems": [
    "AQ.C124_chunk_length",
    "AQ.C124_add_buffer",
    "AQ.C124_limit"
   ],
   "note": "C124_add_buffer identifies the code's add_buffer with the model used in C49-C52, C76, C89, C90, C102, removing the simplification made there."
  },
  {
   "property": "C125",
   "status": "proved",
   "theorems": [
    "AQ.C125_quantile_f64",
    "AQ.C125_value_f64",
    "AQ.C125_quantile_f32",
    "AQ.C125_value_f32",
    "AQ.C125_quantile_round",
    "AQ.C125_value_round",
    "AQ.C125_example"
   ],
   "note": "C125_quantile_round and C125_value_round are the general forms for any arithmetic with monotone rounding and bounded relative error. The right tail is excluded for values as in C120."
  },
  {
   "property": "C126",
   "status": "proved",
   "theorems": [
    "AQ.C126_k0",
    "AQ.C126_k2",
    "AQ.C126_k2_asym",
    "AQ.C126_k3",
    "AQ.C126_round",
    "AQ.C126_f64",
    "AQ.C126_f32",
    "AQ.C126_example"
   ],
   "note": "k1 is left out since a TDigest with k1 is itself not bounded (C79); k2n depends on the number of items (C80)."
  },
  {
   "property": "C127",
   "status": "proved",
   "theorems": [
    "AQ.C127_quantile_round",
    "AQ.C127_value_round",
    "AQ.C127_unmerged_round",
    "AQ.C127_f64",
    "AQ.C127_f32",
    "AQ.C127_example",
    "AQ.C127_value_not_linear",
    "AQ.C127_merged_differs"
   ],
   "note": "Floating point companion of C39, with the value query added. C127_value_not_linear: the value is not always LinearDigest's (which rounds n*q to the nearest place, TDigest rounds down). C127_merged_differs: with D items the claim fails."
  },
  {
   "property": "C128",
   "status": "proved",
   "theorems": [
    "AQ.C128_quantile_low",
    "AQ.C128_quantile_high",
    "AQ.C128_quantile_sure",
    "AQ.C128_value_low",
    "AQ.C128_value_high",
    "AQ.C128_example"
   ],
   "note": "Companion of C95 for RCSketch2."
  },
  {
   "property": "C129",
   "status": "proved",
   "theorems": [
    "AQ.C129_quantile_f64",
    "AQ.C129_value_f64",
    "AQ.C129_quantile_f32",
    "AQ.C129_value_f32",
    "AQ.C129_example",
    "AQ.C129_full_differs"
   ],
   "note": "C127 through the buffer. C129_full_differs: with D items the claim fails."
  },
  {
   "property": "C130",
   "status": "proved",
   "theorems": [
    "AQ.RCSketch.C130_never_panics",
    "AQ.RCSketch.C130_missing_level_panics",
    "AQ.RCSketch.C130_weight",
    "AQ.RCSketch.C130_rank_error",
    "AQ.RCSketch.C130_stored",
    "AQ.RCSketch.C130_unbiased",
    "AQ.RCSketch.C130_mean_squared_error",
    "AQ.RCSketch.C130_count",
    "AQ.RCSketch.C130_interpolate_rank",
    "AQ.RCSketch.C130_example",
    "AQ.RCSketch.C130_quantile_above_one"
   ],
   "note": "Any rounding. C130_quantile_above_one is the finding: the level-wise functions leave count alone."
  },
  {
   "property": "C131",
   "status": "proved",
   "theorems": [
    "AQ.RCSketch.C131_never_panics",
    "AQ.RCSketch.C131_count",
    "AQ.RCSketch.C131_weight",
    "AQ.RCSketch.C131_rank_error",
    "AQ.RCSketch.C131_interpolate_rank",
    "AQ.RCSketch.C131_unbiased",
    "AQ.RCSketch.C131_mean_squared_error",
    "AQ.RCSketch.C131_example"
   ],
   "note": "Any rounding. The merging loop is client code (RCSketch.mergeInto); everything it calls is the crate's."
  },
  {
   "property": "C132",
   "status": "proved",
   "theorems": [
    "AQ.RCSketch.C132_unbiased",
    "AQ.RCSketch.C132_mean_squared_error",
    "AQ.RCSketch.C132_tail",
    "AQ.RCSketch.C132_example"
   ],
   "note": "Any rounding. Extends C10, C61 and C62, which assume N <= n."
  },
  {
   "property": "C133",
   "status": "proved",
   "theorems": [
    "AQ.MergeTree.C133_count",
    "AQ.MergeTree.C133_weight",
    "AQ.MergeTree.C133_interpolate_rank",
    "AQ.MergeTree.C133_never_panics",
    "AQ.MergeTree.C133_unbiased",
    "AQ.MergeTree.C133_mean_squared_error",
    "AQ.MergeTree.C133_tail",
    "AQ.MergeTree.C133_shards",
    "AQ.MergeTree.C133_example",
    "AQ.MergeTree.C133_shards_example"
   ],
   "note": "Any rounding. The merge is a client of the public interface (buffers and count are public fields, insert_at_rc_batch is public); the code has no merge function for RCSketch."
  },
  {
   "property": "C134",
   "status": "proved",
   "theorems": [
    "AQ.C134_count_and_size",
    "AQ.C134_update_sections_idle",
    "AQ.C134_never_panics",
    "AQ.C134_never_panics_average",
    "AQ.C134_levels",
    "AQ.C134_rank_queries_never_panic",
    "AQ.C134_grow_breaks_rank_queries",
    "AQ.C134_rank_error_bound",
    "AQ.C134_rank_unbiased",
    "AQ.C134_mean_squared_error",
    "AQ.C134_interpolate_unbiased",
    "AQ.C134_interpolate_squared_error",
    "AQ.C134_low_ranks_exact",
    "AQ.C134_example"
   ],
   "note": "Any rounding. Not included: get_compact_index and compact_buffer, which hand unfinished work to the caller. The bound of 14 grow calls is sufficient, not claimed to be sharp."
  },
  {
   "property": "C135",
   "status": "proved",
   "theorems": [
    "AQ.C135_conserved",
    "AQ.C135_count",
    "AQ.C135_queries",
    "AQ.C135_error_k0",
    "AQ.C135_value_error_k0",
    "AQ.C135_shards",
    "AQ.C135_size_k0",
    "AQ.C135_size_k2_k3",
    "AQ.C135_round",
    "AQ.C135_f64",
    "AQ.C135_extremes_lost",
    "AQ.C135_example"
   ],
   "note": "Exact arithmetic except C135_round (any monotone rounding with room) and C135_f64. Value errors exclude the right half of the last centroid (C84). The loss of the extremes is a finding, with the witness C135_extremes_lost."
  },
  {
   "property": "C136",
   "status": "proved",
   "theorems": [
    "AQ.C136_quantile_round",
    "AQ.C136_value_round",
    "AQ.C136_quantile_f64",
    "AQ.C136_value_f64",
    "AQ.C136_shards_f64",
    "AQ.C136_quantile_f32",
    "AQ.C136_value_f32",
    "AQ.C136_example"
   ],
   "note": "C136_quantile_round and C136_value_round hold in any correctly rounding arithmetic with relative error u and the stated room."
  },
  {
   "property": "C137",
   "status": "proved",
   "theorems": [
    "AQ.C137_k2",
    "AQ.C137_k3",
    "AQ.C137_history_k2",
    "AQ.C137_history_k3",
    "AQ.C137_example"
   ],
   "note": "Exact arithmetic over the reals (the scale functions use log and exp). The summand H is in terms of the centroids actually next to the queried point, since after several batches a heavy centroid may tie with light ones and the unstable sort may put it first."
  },
  {
   "property": "C138",
   "status": "proved",
   "theorems": [
    "AQ.MergeTree.C138_value_returns",
    "AQ.MergeTree.C138_value_tail",
    "AQ.MergeTree.C138_quantile_eq",
    "AQ.MergeTree.C138_quantile_tail",
    "AQ.MergeTree.C138_shards",
    "AQ.MergeTree.C138_beyond",
    "AQ.MergeTree.C138_shards_example",
    "AQ.MergeTree.C138_example"
   ],
   "note": "Value queries hold in any arithmetic that counts exactly up to N (f64, instance in MergeTree.C138_shards_example); the tail of quantile queries is for exact arithmetic. The merge also sets count, as in C131."
  },
  {
   "property": "C139",
   "status": "proved",
   "theorems": [
    "AQ.C139_error",
    "AQ.C139_value",
    "AQ.C139_shards_k1",
    "AQ.C139_history_k1",
    "AQ.C139_example"
   ],
   "note": "Exact arithmetic over the reals. k2_asym and k2n: see C155. For k1 the bound holds for every compression factor, including those where inv_k1 turns back at the right end."
  },
  {
   "property": "C140",
   "status": "proved",
   "theorems": [
    "AQ.C140_k1",
    "AQ.C140_example"
   ],
   "note": "Exact arithmetic over the reals. Counterpart for k1 of C86 (k2, k3)."
  },
  {
   "property": "C141",
   "status": "proved",
   "theorems": [
    "AQ.C141_k1",
    "AQ.C141_history_k1",
    "AQ.C141_example"
   ],
   "note": "Exact arithmetic over the reals. Counterpart for k1 of C137 (k2, k3); compression factors may differ between the digests."
  },
  {
   "property": "C142",
   "status": "proved",
   "theorems": [
    "AQ.C142_quantile",
    "AQ.C142_value",
    "AQ.C142_example"
   ],
   "note": "Exact arithmetic over the reals. C109 is the case k0 over any ordered field."
  },
  {
   "property": "C143",
   "status": "proved",
   "theorems": [
    "AQ.C143_quantile",
    "AQ.C143_value",
    "AQ.C143_example"
   ],
   "note": "Exact arithmetic over the reals. Counterpart of C137 for ParTDigest."
  },
  {
   "property": "C144",
   "status": "proved",
   "theorems": [
    "AQ.C144_quantile",
    "AQ.C144_value",
    "AQ.C144_example"
   ],
   "note": "Exact arithmetic over the reals. Counterpart of C141 for ParTDigest."
  },
  {
   "property": "C145",
   "status": "proved",
   "theorems": [
    "AQ.C145_k2_asym",
    "AQ.C145_history",
    "AQ.C145_example"
   ],
   "note": "Exact arithmetic over the reals. Nothing comparable holds at the upper end; SymDigest is meant for that (C147)."
  },
  {
   "property": "C146",
   "status": "proved",
   "theorems": [
    "AQ.C146_state",
    "AQ.C146_quantile",
    "AQ.C146_value",
    "AQ.C146_example"
   ],
   "note": "Exact arithmetic over the reals. Counterpart of C145 for ParTDigest."
  },
  {
   "property": "C147",
   "status": "proved",
   "theorems": [
    "AQ.C147_quantile",
    "AQ.C147_value",
    "AQ.C147_example"
   ],
   "note": "Exact arithmetic over the reals. The two sides run the same calls, the upper one negated; the result for q = 1/2 is covered by C54 (average of the sides)."
  },
  {
   "property": "C148",
   "status": "proved",
   "theorems": [
    "AQ.C148_ranks_add",
    "AQ.C148_tdigests",
    "AQ.C148_example"
   ],
   "note": "Exact arithmetic. C102 is the analogue for expected squared errors."
  },
  {
   "property": "C149",
   "status": "proved",
   "theorems": [
    "AQ.C149_relative",
    "AQ.C149_example"
   ],
   "note": "Exact arithmetic over the reals."
  },
  {
   "property": "C150",
   "status": "proved",
   "theorems": [
    "AQ.C150_quantile",
    "AQ.C150_value",
    "AQ.C150_example"
   ],
   "note": "Exact arithmetic over the reals; explicit calls of flush included."
  },
  {
   "property": "C151",
   "status": "proved",
   "theorems": [
    "AQ.C151_quantile",
    "AQ.C151_value",
    "AQ.C151_example"
   ],
   "note": "Exact arithmetic over the reals; explicit calls of flush included."
  },
  {
   "property": "C152",
   "status": "proved",
   "theorems": [
    "AQ.C152_quantile",
    "AQ.C152_value",
    "AQ.C152_example"
   ],
   "note": "Exact arithmetic over the reals; explicit calls of flush included."
  },
  {
   "property": "C153",
   "status": "proved",
   "theorems": [
    "AQ.C153_ranks_average",
    "AQ.C153_values_between",
    "AQ.C153_tdigests",
    "AQ.C153_example"
   ],
   "note": "Exact arithmetic. C73, C74 and C103 are the analogues for expected squared errors."
  },
  {
   "property": "C154",
   "status": "proved",
   "theorems": [
    "AQ.C154_quantile",
    "AQ.C154_value",
    "AQ.C154_tdigests",
    "AQ.C154_example"
   ],
   "note": "Exact arithmetic. C147 adds the relative accuracy at both ends for k2_asym."
  },
  {
   "property": "C155",
   "status": "proved",
   "theorems": [
    "AQ.C155_error",
    "AQ.C155_value",
    "AQ.C155_history_k2n",
    "AQ.C155_example"
   ],
   "note": "Exact arithmetic. Extends C139 (k0 to k3, one fraction for all passes) to k2_asym and k2n; G need not be monotone."
  },
  {
   "property": "C156",
   "status": "proved",
   "theorems": [
    "AQ.C156_counters",
    "AQ.C156_less_than_sum",
    "AQ.C156_insert",
    "AQ.C156_closest_keys",
    "AQ.C156_logarithmic",
    "AQ.C156_increasing_order",
    "AQ.C156_example"
   ],
   "note": "That rand's shuffle makes all orders equally likely is trusted. Keys inserted later, by add_cluster_tree itself, are not in random order and are not covered."
  },
  {
   "property": "C157",
   "status": "proved",
   "theorems": [
    "AQ.MergeTree.C157_tail",
    "AQ.MergeTree.C157_plain",
    "AQ.MergeTree.C157_shards",
    "AQ.MergeTree.C157_example"
   ],
   "note": "Exponential moments with rational bases: the mean of a^error is at most ((a+1/a)/2)^V for every rational a >= 1, by a supermartingale over the compactions; the base is then optimised over the reals."
  },
  {
   "property": "C158",
   "status": "proved",
   "theorems": [
    "AQ.MergeTree.C158_all_ranks",
    "AQ.MergeTree.C158_all_values",
    "AQ.MergeTree.C158_plain",
    "AQ.MergeTree.C158_plain_values",
    "AQ.MergeTree.C158_example"
   ],
   "note": "Two pivot items per strip of N/m ranks suffice because true and estimated ranks are monotone and change only at supplied items; one-sided tails of C157 at the pivots and a union bound."
  },
  {
   "property": "C159",
   "status": "proved",
   "theorems": [
    "AQ.C159_tail",
    "AQ.C159_tail_k",
    "AQ.C159_example"
   ],
   "note": "Same method as C157 for the levels of RCSketch2, with the sure bound of C98 on the compactions."
  },
  {
   "property": "C160",
   "status": "proved",
   "theorems": [
    "AQ.C160_all_ranks",
    "AQ.C160_all_values",
    "AQ.C160_all_ranks_k",
    "AQ.C160_all_values_k",
    "AQ.C160_example"
   ],
   "note": "Pivot items and union bound as in C158; value queries also use the error of the total stored weight."
  },
  {
   "property": "C161",
   "status": "proved",
   "theorems": [
    "AQ.C161_multi",
    "AQ.C161_multi_tail",
    "AQ.C161_multi_rcsketch",
    "AQ.C161_multi_rcsketch2",
    "AQ.Spec.Concentrates.tail",
    "AQ.rc_concentrates",
    "AQ.rc2_concentrates",
    "AQ.C161_example"
   ],
   "note": "Exact arithmetic. Spec.Concentrates states integrality, count and moment bounds of an answer; members are independent, so moments multiply."
  },
  {
   "property": "C162",
   "status": "proved",
   "theorems": [
    "AQ.C162_parallel",
    "AQ.C162_parallel_rcsketch",
    "AQ.C162_parallel_rcsketch2",
    "AQ.parallel_signs",
    "AQ.C162_example"
   ],
   "note": "Exact arithmetic. Shares as in C102."
  },
  {
   "property": "C163",
   "status": "proved",
   "theorems": [
    "AQ.C163_relative_tail",
    "AQ.C163_relative_tail_fast",
    "AQ.C163_example",
    "AQ.RCSketch.relative_tail"
   ],
   "note": "The number of compactions that matter for x is itself random, so the exponential moments are taken on the event that no level has seen more than twice the rank; leaving that event is bounded level by level with the same moments."
  },
  {
   "property": "C164",
   "status": "proved",
   "theorems": [
    "AQ.C164_all_ranks",
    "AQ.C164_all_values",
    "AQ.C164_example",
    "AQ.all_ranks_rel"
   ],
   "note": "Two pivot items per power of 1+e suffice because true and estimated ranks are monotone and change only at supplied items. Only the logarithm of the number of items enters the probability."
  },
  {
   "property": "C165",
   "status": "proved",
   "theorems": [
    "AQ.C165_relative_tail",
    "AQ.C165_example",
    "AQ.RCSketch2.relative_tail2",
    "AQ.calm_relative"
   ],
   "note": "The number of compactions that matter for x is itself random, so the exponential moments are taken on the event that no level has seen more than twice the rank; leaving that event is bounded level by level with the same moments."
  },
  {
   "property": "C166",
   "status": "proved",
   "theorems": [
    "AQ.C166_all_ranks",
    "AQ.C166_all_values",
    "AQ.C166_example",
    "AQ.all_ranks_rel"
   ],
   "note": "The factor 1-3e on the right is needed because RCSketch2 may store a total weight below N, so a target near N can fall past the last item (C64)."
  },
  {
   "property": "C167",
   "status": "proved",
   "theorems": [
    "AQ.C167_all_quantiles",
    "AQ.C167_all_values",
    "AQ.C167_all_quantiles_rc2",
    "AQ.C167_all_values_rc2",
    "AQ.C167_example",
    "AQ.sym_union",
    "AQ.sym_accurate",
    "AQ.sym_values"
   ],
   "note": "Unlike C95 and C128 there is no gap around the middle: the count on the side the comparison picks is at most twice the count on the other side."
  },
  {
   "property": "C168",
   "status": "proved",
   "theorems": [
    "AQ.C168_multi",
    "AQ.C168_multi_values",
    "AQ.C168_parallel",
    "AQ.C168_parallel_values",
    "AQ.C168_multi_rcsketch",
    "AQ.C168_multi_rcsketch2",
    "AQ.C168_parallel_rcsketch",
    "AQ.C168_parallel_rcsketch2",
    "AQ.C168_example",
    "AQ.multi_relQ",
    "AQ.multi_values",
    "AQ.parallel_relQ",
    "AQ.parallel_values",
    "AQ.multi_union",
    "AQ.feed_union"
   ],
   "note": "The shares are those of Spec/Share.lean (C102); a share may not be empty because an empty sketch answers NaN (C50). The tolerance of value queries of the ParallelDigest is that of its bisection (C51)."
  },
  {
   "property": "C169",
   "status": "proved",
   "theorems": [
    "AQ.C169_multi",
    "AQ.C169_parallel",
    "AQ.C169_sym",
    "AQ.rc_relSure",
    "AQ.rc2_relSure",
    "AQ.C169_example",
    "AQ.C169_unequal_members"
   ],
   "note": "C169_example: a SymDigest of two ParallelDigests of four MultiDigests of three RCSketches. C169_unequal_members is the witness that unequal counts spoil the weighting (a consequence of C56)."
  },
  {
   "property": "C170",
   "status": "proved",
   "theorems": [
    "AQ.C170_buffered",
    "AQ.C170_buffered_rcsketch",
    "AQ.C170_buffered_rcsketch2",
    "AQ.C170_buffered_values",
    "AQ.C170_buffered_rcsketch_values",
    "AQ.C170_buffered_rcsketch2_values",
    "AQ.C170_example"
   ],
   "note": "C170_example: capacity 1000 around RCSketch::new(1000000, 100), a million single insertions, failure probability at most 1e-5."
  },
  {
   "property": "C171",
   "status": "proved",
   "theorems": [
    "AQ.C171_quantile",
    "AQ.C171_value_shift",
    "AQ.C171_value_scale",
    "AQ.C171_last_tail_not_scaled"
   ],
   "note": "The value statements assume at least one item, fewer than 2^64 items and a chunk length other than 0. C171_last_tail_not_scaled is the witness for the exception, which ParTDigest inherits from TDigest (C113)."
  },
  {
   "property": "C172",
   "status": "proved",
   "theorems": [
    "AQ.C172_answers",
    "AQ.C172_multi",
    "AQ.C172_buffered",
    "AQ.C172_parallel",
    "AQ.C172_sym",
    "AQ.C172_boxed",
    "AQ.C172_tdigest",
    "AQ.C172_partdigest",
    "AQ.C172_rcsketch",
    "AQ.C172_rcsketch2",
    "AQ.C172_linear",
    "AQ.C172_deepNest",
    "AQ.C172_sketchNest",
    "AQ.C172_value_search_depends_on_origin"
   ],
   "note": "`Equi` is hypothesis and conclusion of the wrapper theorems, so they compose; C172_deepNest and C172_sketchNest are two nestings written out. C172_value_search_depends_on_origin shows why value queries are left out."
  },
  {
   "property": "C173",
   "status": "proved",
   "theorems": [
    "AQ.C173_answers",
    "AQ.C173_multi",
    "AQ.C173_buffered",
    "AQ.C173_sym",
    "AQ.C173_boxed",
    "AQ.C173_rcsketch",
    "AQ.C173_rcsketch2",
    "AQ.C173_linear",
    "AQ.C173_sketchNest",
    "AQ.C173_mixed",
    "AQ.C173_empty_tdigest_not_shifted"
   ],
   "note": "`EquiV` is hypothesis and conclusion of the wrapper theorems, so they compose; a MultiDigest without members answers NaN on both sides. ParallelDigest is left out because of C172_value_search_depends_on_origin, t-digests because of C173_empty_tdigest_not_shifted and C113_last_tail_not_scaled."
  },
  {
   "property": "C174",
   "status": "proved",
   "theorems": [
    "AQ.C174_tdigest",
    "AQ.C174_buffered",
    "AQ.C174_partdigest",
    "AQ.C174_equal_means_may_change"
   ],
   "note": "C174_equal_means_may_change shows that the proviso cannot be dropped in the model, where an unstable sort may leave equal means in any order."
  },
  {
   "property": "C175",
   "status": "proved",
   "theorems": [
    "AQ.C175_answers",
    "AQ.C175_multi",
    "AQ.C175_sym",
    "AQ.C175_boxed",
    "AQ.C175_tdigest",
    "AQ.C175_partdigest",
    "AQ.C175_rcsketch",
    "AQ.C175_rcsketch2",
    "AQ.C175_nest",
    "AQ.C175_buffered",
    "AQ.C175_buffered_nest",
    "AQ.C175_buffered_nest2",
    "AQ.C175_linear_sorts"
   ],
   "note": "A BufferedDigest around a TDigest is the subject of C174; ParallelDigest is not treated."
  }
 ]
}