"""Writes MANIFEST.json. Each entry: property, status, theorems, note."""
import json
C = []
def c(p, status, thms, note=""):
    C.append({"property": p, "status": status, "theorems": ["AQ." + t for t in thms.split()], "note": note})
c("C01", "proved", "C01_linear_value_is_order_statistic C01_linear_exact C01_history_returns C01_unrepresentable_length_panics",
  "Any monotone rounding for which the item count is representable; the witness shows the query panics otherwise.")
c("C02", "proved", "C02_linear_quantile_formula C02_linear_quantile_monotone", "Any monotone rounding exact on half-integers up to n.")
c("C03", "proved", "C03_linear_order_irrelevant", "Any rounding.")
c("C04", "proved", "C04_weighted_average_bounds C04_weighted_average_exact", "Any rounding, any weights.")
c("C05", "proved", "C05_count_exact", "Every history (no range restriction), every coin sequence, any rounding.")
c("C06", "proved", "C06_buffers_below_capacity", "Every history that returns.")
c("C07", "proved", "C07_insertions_never_panic C07_insertions_never_panic_average C07_queries_never_panic",
  "n < 2^32, any non-NaN data. Queries: even k (for odd k the level count is not bounded by 31 and the i32 level weight may overflow). AverageNeighbour: any binary floating-point rounding, finite items whose double does not overflow.")
c("C08", "partial", "C08_weight_conserved_partial C08_top_is_one_partial C08_top_is_one_average_partial C08_odd_k_weight_not_conserved",
  "Proved for even k; false for odd k (witness new(4,1) with 4 items).")
c("C09", "proved", "C09_rank_error_bound C09_rank_error_bound_any_method C09_counters",
  "Default compaction: any data and rounding. AverageNeighbour: any binary floating-point rounding, finite items whose double does not overflow.")
c("C10", "proved", "C10_rank_unbiased C10_interpolate_rank_unbiased",
  "All k for the weighted rank of the stored items; for even k also for the returned value of interpolate_rank (for odd k interpolate_rank is only shown to agree when it does not overflow).")
c("C11", "proved", "C11_low_ranks_exact", "Default/fast compaction.")
c("C12", "proved", "C12_quantile_monotone", "Any sketch state, any monotone rounding.")
c("C13", "proved", "C13_value_is_input C13_value_in_range C13_average_overflow", "AverageNeighbour: any binary floating-point rounding, finite items whose double does not overflow; C13_average_overflow shows that otherwise the answer may be infinite.")
c("C14", "proved", "C14_value_monotone", "Any sketch state, any monotone rounding.")
c("C15", "proved", "C15_memory_logarithmic", "Even k; holds even beyond the declared input length.")
c("C16", "proved", "C16_add_buffer_is_repeated_add", "Equality of programs: same coins, same result.")
c("C17", "proved", "C17_value_quantile_consistent C17_rank_is_interpolate_rank", "At most 31 levels, stored weight exactly representable.")
c("C18", "proved", "C18_count_and_size_exact", "Any section sizes, any history.")
c("C19", "proved", "C19_insertions_never_panic C19_insertions_never_panic_average C19_insertions_never_panic_real C19_rank_queries_never_panic C19_value_queries_never_panic C19_k1_panics C19_insertions_never_panic_f32 C19_queries_never_panic_f32",
  "Section sizes are an arbitrary function satisfying SecOK, proved for exact arithmetic and k >= 4, and for the f32 arithmetic of the code and 4 <= k < 2^24 (queries: 33 <= k). The witness shows that k = 1 panics after 19 items.")
c("C20", "proved", "C20_stored_below_capacity", "Strictly below.")
c("C21", "proved", "C21_rank_error_bound C21_rank_error_bound_any_method", "Any section sizes. AverageNeighbour: any binary floating-point rounding, finite items whose double does not overflow.")
c("C22", "proved", "C22_rank_unbiased C22_interpolate_rank_unbiased C22_interpolate_rank_unbiased_f32", "Any section sizes with SecOK; also with the f32 section sizes of the code.")
c("C23", "proved", "C23_low_ranks_exact C23_low_ranks_exact_f32", "P = 3 * initial section size, half the capacity of a new level; no limit on the number of items.")
c("C24", "proved", "C24_quantile_monotone C24_value_monotone C24_value_is_input", "")
c("C25", "proved", "C25_prefix_sums C25_duplicate_key_panics", "Exact arithmetic for the sums.")
c("C26", "proved", "C26_contents C26_delete_missing_key_miscounts", "Any rounding. Deleting a key that is not stored miscounts size().")
c("C27", "partial", "C27_prefix_sums_after_deletions_partial C27_prefix_sums_wrong_after_delete C27_prefix_sums_too_small_after_delete",
  "False as stated: delete never updates the sums of the nodes it passes; the witnesses show sums too large and too small. Proved for deletions of the currently largest key.")
c("C28", "proved", "C28_closest_keys", "Exact arithmetic, finite keys.")
c("C29", "proved", "C29_total_weight C29_count", "Any scale functions (arbitrary total functions); count for fewer than 2^64 items.")
c("C30", "partial", "C30_min_max_partial C30_min_max_first_batch_partial C30_max_exceeds_data_with_rounding",
  "Proved in exact arithmetic, and for the first batch under any rounding. False under f64 rounding over several batches (witness 0.1,0.1,0.1 then 0.05): a rounded merged mean may exceed the data and is then taken as the maximum.")
c("C31", "proved", "C31_sorted_in_range C31_unsorted_with_rounding", "Exact arithmetic; with f64 rounding centroids can be out of order (C31_unsorted_with_rounding).")
c("C32", "proved", "C32_mass", "")
c("C33", "proved", "C33_merge_joins_neighbours", "Also for digests whose centroids are not sorted.")
c("C34", "proved", "C34_quantile_is_probability C34_empty_is_nan", "Exact arithmetic, centroid weights at least 1, any scale functions.")
c("C35", "partial", "C35_quantile_monotone_partial C35_single_batch_monotone_partial C35_not_monotone_at_last_mean C35_not_monotone_below_first_mean",
  "False as stated (two witnesses). Monotone away from the two defects: the value exactly at the last mean, and unit-weight end centroids that are not at the extremes.")
c("C36", "partial", "C36_value_in_range_partial C36_value_below_min C36_value_nan",
  "False as stated: the formula for the upper half of the last centroid lacks the factor (max - mean); estimated median -0.7 for 0,0.1,0.2,0.3 and NaN for 0,1. In range outside that part, and inside it when the spread is at least 1 and the last weight is not 2.")
c("C37", "proved", "C37_extreme_quantiles", "Exact arithmetic, weights at least 1, total below 2^64.")
c("C38", "proved", "C38_value_never_panics C38_empty_returns_max_value", "Exact arithmetic.")
c("C39", "proved", "C39_uncompressed_is_exact", "Exact arithmetic; any history whose digest has as many centroids as items.")
c("C40", "proved", "C40_size_bounded", "Exact arithmetic, any history of add, add_buffer and add_centroid_buffer.")
c("C41", "proved", "C41_cluster_history C41_cluster_size C41_cluster_unsorted", "Exact arithmetic, growth limits that denote a number of centroids. C41_cluster_unsorted records that add_cluster may leave the centroids unsorted.")
c("C42", "proved", "C42_closest_bounds C42_closest_contains_nearest", "Any monotone rounding.")
c("C43", "proved", "C43_tree_history C43_tree_sorted C43_tree_size C43_tree_duplicate_panics", "Exact arithmetic, all shuffles; about the executions that return.")
c("C44", "partial", "C44_value_monotone_partial C44_value_not_monotone", "False as stated, same defect as C36.")
c("C60", "proved", "C60_tdigest_nan_panics C60_single_nan_accepted C60_linear_value_nan_panics C60_compact_nan_panics C60_rc_value_nan_panics C60_rc2_compact_nan_panics C60_rc2_value_nan_panics", "")
c("C61", "proved", "C61_variance_by_compactions C61_mean_squared_error C61_interpolate_rank_error", "")
c("C62", "proved", "C62_rank_error_tail C62_interpolate_rank_tail", "Chebyshev from C61.")
c("C63", "proved", "C63_a_priori_rank_error", "")
c("C64", "partial", "C64_weight_error_partial C64_expected_weight_partial C64_weight_not_conserved C64_weight_not_conserved_large_k",
  "False as stated (witnesses k = 1 with 6 items, k = 4 with 50 items). What holds: bounded deviation, and exact expectation.")
c("C65", "proved", "C65_add_buffer_is_repeated_add", "Equality of programs: same coins, same result.")
c("C66", "proved", "C66_variance_by_compactions C66_interpolate_rank_error", "")
c("C67", "partial", "C67_closest_contains_all_nearest_partial C67_range_contains_far C67_range_misses_tie", "False as stated: the code compares signed distances.")
c("C68", "proved", "C68_centroid_add", "Exact arithmetic.")
c("C69", "partial", "C69_merge_fits_partial C69_tree_ignores_size", "Proved for add_cluster while the growth limit is not reached; false for add_cluster_tree, which passes the merged mean as the weight.")
c("C45", "proved", "C45_count C45_flush_delivers_everything C45_query_sees_everything C45_zero_threads_panics", "Exact arithmetic, finite items, fewer than 2^64 of them, any scale functions.")
c("C46", "partial", "C46_limits_after_flush_partial C46_first_flush_exact_partial C46_earlier_minimum_forgotten", "False as stated: a flush overwrites min and max with those of the flushed items and the centroid means. Exact for the first flush.")
c("C70", "proved", "C70_flushed_digest_in_data_range C70_quantile_is_probability", "Exact arithmetic.")
c("C71", "proved", "C71_buffer_bounded C71_any_arithmetic", "")
c("C47", "proved", "C47_transparent C47_count C47_linear_same_answers", "Any wrapped digest that answers alike after equal batches (C47_transparent), LinearDigest in particular.")
c("C48", "proved", "C48_buffer_bounded C48_capacity_zero", "")
c("C72", "proved", "C72_batches", "")
c("C53", "proved", "C53_mirror_symmetric C53_mirror_outcomes C53_not_symmetric_with_rounding", "Exact arithmetic; also for randomised sub-digests (equality of distributions). With f64 the answers can differ in the last bits (witness).")
c("C54", "proved", "C54_quantile_answer C54_value_answer C54_between_sides C54_count C54_nan_panics C54_empty_panics", "Exact arithmetic. The quantile query panics when a side answers NaN, e.g. when empty.")
c("C55", "proved", "C55_mean_of_members C55_between_members C55_no_members_nan C55_boxed_members", "Exact arithmetic.")
c("C56", "partial", "C56_count_partial C56_two_members_count_double", "False as stated: count() is the number of items times the number of members.")
c("C73", "proved", "C73_averaging_divides_variance C73_averaging_divides_variance_value", "Exact arithmetic.")
c("C74", "proved", "C74_multi_rcsketch", "Exact arithmetic in the queries.")
c("C75", "proved", "C75_sym_of_exact_digests", "Exact arithmetic.")
c("C49", "proved", "C49_distributes C49_accepts C49_count C49_limits C49_no_digests_drops_data", "Any sub-digests. With no sub-digests the data is dropped silently (witness).")
c("C50", "partial", "C50_weighted_mean_partial C50_between_members_partial C50_monotone_partial C50_empty_member_nan C50_single_adds_nan", "False as stated: one empty sub-digest that answers NaN makes every answer NaN (5 items over 4 LinearDigests; items added one at a time). Holds in exact arithmetic when all sub-digests answer with numbers.")
c("C51", "proved", "C51_value_search C51_at_most_20_rounds C51_value_inverts_quantile C51_value_within_data", "Sub-digests that answer with numbers; exact arithmetic, but C51_value_within_data also in binary floating point for items that can be doubled.")
c("C52", "partial", "C52_nonempty_accepted_partial C52_empty_buffer_panics C52_buffered_second_query_panics", "False as stated: the empty buffer always panics. Non-empty buffers are accepted.")
c("C76", "proved", "C76_parallel_linear_exact C76_all_members_fed", "Exact arithmetic.")
c("C57", "proved", "C57_k0_inverse C57_k1_inverse C57_k2_inverse C57_k2_ends C57_k2_asym_inverse C57_k2n_inverse C57_k3_inverse", "Real arithmetic with IEEE special values; C57_k2_ends: k2 at the end points (NaN at 1).")
c("C58", "proved", "C58_k0_increasing C58_k1_increasing C58_k2_increasing C58_k2_asym_increasing C58_k2n_increasing C58_k3_increasing C58_inverse_increasing", "Real arithmetic with IEEE special values, positive normaliser.")
c("C77", "proved", "C77_k2_size C77_k2_asym_size", "Real arithmetic, weights at least 1.")
c("C78", "proved", "C78_k3_size", "Real arithmetic, weights at least 1.")
c("C79", "partial", "C79_k1_size_partial C79_k1_upper_tail_unmerged C79_k1_size_unbounded", "The claim is false: inv_k1 wraps around above the top, so items in the upper tail are never merged (C79_k1_upper_tail_unmerged) and 4m items leave m+1 centroids with factor 3 (C79_k1_size_unbounded). Proved instead: at most d + 3 + (1-cos(2 pi/d))/2 * W centroids for total weight W.")
c("C80", "proved", "C80_k2n_size", "Real arithmetic, weights at least 1.")
c("C59", "partial", "C59_bracketed_partial C59_rounds_exist C59_finds_threshold C59_untested_max C59_epsilon_not_positive C59_f64_does_not_terminate", "Proved in exact arithmetic, for arbitrary random tests. In f64 the search may not terminate although epsilon > 0 (C59_f64_does_not_terminate); the comment that the result has passed is wrong when nothing passes (C59_untested_max).")
c("C81", "proved", "C81_samples C81_returns C81_exact_digest", "Any arithmetic.")
c("C82", "proved", "C82_ascending C82_growing_blocks", "Exact arithmetic.")
c("C83", "proved", "C83_quantile_error C83_quantile_error_k0", "Exact arithmetic.")
c("C84", "partial", "C84_value_error_partial C84_value_error_tail", "False as stated: right of the middle of the last centroid the answer may lie below all items (C84_value_error_tail). Proved everywhere else, exact arithmetic.")
c("C85", "partial", "C85_outward_accuracy_partial C85_adds_no_accuracy", "False as stated: for every e > 0 and d >= 4 there are arbitrarily long sequences of items in [0,2] whose insertion one by one makes the digest answer every value query below 1-1/d with one of the lowest e*n items (C85_adds_no_accuracy). Proved for batches none of whose items falls between earlier ones.")
c("C86", "proved", "C86_k2_relative C86_k3_relative C86_k2n_relative", "Real arithmetic, compression factor at most 10^5.")
c("C87", "proved", "C87_insertion_safe C87_count C87_f64 C87_overflow_panics", "Any monotone rounding satisfying Spec.Roomy, which f64 does for 2^52 items up to 2^970 and f32 for 2^23 items up to 2^103 (f64_roomy, f32_roomy). C87_overflow_panics: without the bound on the magnitude insertion can panic.")
c("C88", "proved", "C88_quantile_is_probability C88_quantile_outside C88_extreme_quantiles C88_value_never_panics C88_value_nan_panics C88_f64", "Arithmetic as for C87. About the range of value answers see C36.")
c("C89", "proved", "C89_sequential C89_schedule_unobservable C89_any_schedule_in_range C89_any_schedule_near C89_schedule_observable_f64", "In f64 the last places do depend on the schedule (C89_schedule_observable_f64).")
c("C90", "proved", "C90_value_search_rounded C90_at_most_21_rounds C90_equal_items C90_linear_f64 C90_overflow_f64 C90_wide_range_f64 C90_tiny_range_never_ends_f64", "Any binary rounding arithmetic with the room said by Spec.SearchRoom, established for f64; each restriction on the data is shown to be needed by a witness.")
c("C91", "proved", "C91_near_mean C91_between_members C91_quantile_in_unit C91_outside_members_f64 C91_overflow_f64", "Monotone rounding with the error bound Spec.RelErr, established for f64. The answer may leave the interval of the members' answers by rounding (C91_outside_members_f64).")
c("C92", "proved", "C92_relative_rank_error C92_stored_rank_relative C92_relative_rank_error_fast C92_stored_rank_relative_fast C92_relative_tail C92_multi_relative", "MultiDigest version in exact arithmetic.")
c("C93", "partial", "C93_tdigest C93_rcsketch C93_buffered C93_part C93_rcsketch_holds_items C93_sym_partial C93_sym_exact_iff C93_sym_constant C93_parallel_partial C93_parallel_wrong C93_rcsketch2_partial C93_rcsketch2_wrong", "False as stated for three types: SymDigest leaves out everything its members own (C93_sym_exact_iff, C93_sym_constant), ParallelDigest counts the inline part of each member twice (C93_parallel_wrong), RCSketch2 counts four bytes too many per counter slot (C93_rcsketch2_wrong). Exact for TDigest, RCSketch, and BufferedDigest and ParTDigest over exact digests.")
c("C94", "proved", "C94_value_rank_error C94_value_tail C94_value_relative C94_target", "Any rounding that represents integers up to N exactly; t is q*N as computed, in [0,N] for monotone rounding (C94_target).")
c("C95", "proved", "C95_quantile_low C95_quantile_high C95_quantile_sure C95_value_low C95_value_high", "Exact arithmetic in the queries.")
c("C96", "proved", "C96_count C96_flush C96_quantile_is_probability C96_value_returns C96_f64", "Any monotone rounding arithmetic with room for the items; f64 as an instance.")
c("C97", "proved", "C97_quantile_between C97_quantile_is_probability C97_value_sides C97_median_between C97_tdigests C97_sketches_sure C97_sketches_value_low C97_sketches_value_high C97_tdigests_f64 C97_sketches_f64", "Monotone (binary) rounding; f64 as an instance.")
c("C98", "proved", "C98_rank_error C98_mean_squared_error C98_rank_error_k C98_mean_squared_error_k C98_tail_k", "Section sizes: exact (k >= 256) or in f32 (264 <= k < 2^24); the general forms for any sizes with Spec.Rc2Size.")
c("C99", "proved", "C99_value_rank_error C99_value_tail C99_value_tail_k", "Any rounding that represents integers up to 2N exactly; t is q*N as computed, in [0,N] for monotone rounding (C94_target).")
c("C100", "proved", "C100_relative_rank_error C100_relative_rank_error_k C100_relative_tail C100_value_relative", "Section sizes: exact (k >= 256) or in f32 (264 <= k < 2^24). Value queries: any rounding that represents integers up to 2N exactly.")
c("C101", "proved", "C101_weight_left C101_weight_left_round C101_k_size C101_cluster_rule", "add_cluster only; add_cluster_tree passes the mean as the weight (C69_tree_ignores_size).")
c("C102", "proved", "C102_parallel_combines C102_parallel_rcsketch C102_parallel_rcsketch2", "Spec.Estimates states count, absence of panics, bias and mean squared error; Spec.Estimates.tail is the Chebyshev bound.")
c("C103", "proved", "C103_multi_combines C103_multi_rcsketch2 C103_parallel_multi_rcsketch", "")
c("C104", "proved", "C104_cluster_safe C104_growth_limit C104_tree_safe C104_tree_sorted C104_f64", "")
c("C105", "proved", "C105_prefix_sums C105_from_centroids C105_closest_keys C105_f64 C105_closest_f64 C105_absorbed C105_overflow_finds_nothing", "")
c("C106", "proved", "C106_count_and_weight C106_count_and_weight_round C106_flushed_weight C106_f64", "")
c("C107", "proved", "C107_rcsketch_same_stream C107_rcsketch2_same_stream C107_buffered_rcsketch C107_buffered_rcsketch2 C107_buffered_rcsketch2_f32", "")
c("C108", "proved", "C108_error_per_call C108_value_error_per_call C108_error_k0 C108_error_k0_batches C108_value_error_k0", "")
c("C109", "proved", "C109_quantile_error C109_value_error", "")
c("C110", "proved", "C110_inner_calls C110_tdigest_quantile_error C110_buffered_quantile_error C110_buffered_value_error", "")
c("C111", "partial", "C111_fresh_cluster_partial C111_large_values C111_repeat_panics C111_distinct_may_panic", "False as stated (witnesses C111_repeat_panics, C111_distinct_may_panic). Proved: one fresh cluster among means at least 1/1000 apart; exact criterion under k0 for large values.")
c("C112", "proved", "C112_rcsketch_quantile C112_rcsketch_value C112_rcsketch2_quantile C112_rcsketch2_value C112_linear C112_average_neighbour_differs", "Equality of programs, so coin for coin.")
c("C113", "proved", "C113_state C113_quantile C113_value_shift C113_value_scale C113_cluster_quantile C113_last_tail_not_scaled C113_cluster_shift_differs C113_cluster_tree_not_scaled", "The exceptions named in the statement are each shown by a witness.")
c("C114", "proved", "C114_insert_pinf C114_quantile_pinf C114_insert_ninf C114_quantile_ninf_nan C114_both_signs C114_value_nan C114_min_of_infinities", "The failures named in the statement are each shown by a witness.")
c("C115", "proved", "C115_lengths C115_uniform_range C115_tan_range C115_tan_nan C115_uniform_f64 C115_uniform_f32 C115_exp_range C115_exp_f32 C115_exp_panics C115_unit_centroids_taken C115_random_weights_taken C115_zero_weights_poison C115_one_zero_weight", "The samples are parameters of the model; probabilities are not modelled. The TDigest totals are for exact arithmetic, C115_zero_weights_poison holds in any.")
c("C116", "proved", "C116_rcsketch C116_rcsketch_start C116_rcsketch2 C116_rcsketch2_start C116_tdigest C116_tdigest_first_batch C116_rcsketch_order_matters C116_rcsketch2_order_matters C116_tdigest_order_matters", "Sketches: equality of the programs, random bit for random bit, by a relation (same levels up to order within each) preserved by every operation. TDigest: equal sets of outcomes, because the unstable sort can return every sorted permutation. The last three theorems are the witnesses that order matters beyond that.")
c("C117", "proved", "C117_size_round C117_f64 C117_f32 C117_f64_one_more", "f64/f32 theorems are for a natural factor and unit weights; C117_size_round is the general form (any factor at least 1, integer weights).")
c("C118", "proved", "C118_rank_round C118_f64 C118_f32 C118_f64_repeated", "C118_rank_round: any scale functions, M the heaviest centroid of the digest; the f64/f32 forms use C117 for M.")
c("C119", "partial", "C119_round_trip_partial C119_right_tail C119_right_tail_far", "The right tail is excluded because the statement is false there (missing factor in est_value_at_quantile); C119_right_tail gives the exact answer, C119_right_tail_far a witness.")
c("C120", "proved", "C120_value_round C120_f64 C120_f32", "C120_value_round: any scale functions, M the heaviest centroid of the digest, every q in [0,1] outside the outer half of the last centroid (there the answer is wrong already in exact arithmetic, C35/C119).")
c("C121", "proved", "RCSketch.C121_size RCSketch.C121_transfer RCSketch.C121_outcomes RCSketch.C121_never_panics RCSketch.C121_exact RCSketch.C121_f64 RCSketch.C121_f64_never_panics RCSketch.C121_f32 RCSketch.C121_f32_never_panics", "log2 is a parameter (its accuracy is not specified by the standard library); log2Near_exists and crudeLog2_like show the hypotheses are met.")
c("C122", "proved", "RCSketch.C122_safe RCSketch.C122_safe_average RCSketch.C122_panics RCSketch.C122_overflow RCSketch.C122_declared RCSketch.C122_square", "Debug overflow checks as everywhere in the model; extends C07 beyond n < 2^32.")
c("C123", "proved", "C123_quantile_f64 C123_value_f64 C123_quantile_f32 C123_value_f32 C123_example", "BufferedDigest.flush_batches is the general form (any scale functions, any arithmetic with monotone rounding); the right tail is excluded for values as in C120.")
c("C124", "proved", "C124_chunk_length C124_add_buffer C124_limit", "C124_add_buffer identifies the code's add_buffer with the model used in C49-C52, C76, C89, C90, C102, removing the simplification made there.")
c("C125", "proved", "C125_quantile_f64 C125_value_f64 C125_quantile_f32 C125_value_f32 C125_quantile_round C125_value_round C125_example", "C125_quantile_round and C125_value_round are the general forms for any arithmetic with monotone rounding and bounded relative error. The right tail is excluded for values as in C120.")
c("C126", "proved", "C126_k0 C126_k2 C126_k2_asym C126_k3 C126_round C126_f64 C126_f32 C126_example", "k1 is left out since a TDigest with k1 is itself not bounded (C79); k2n depends on the number of items (C80).")
c("C127", "proved", "C127_quantile_round C127_value_round C127_unmerged_round C127_f64 C127_f32 C127_example C127_value_not_linear C127_merged_differs", "Floating point companion of C39, with the value query added. C127_value_not_linear: the value is not always LinearDigest's (which rounds n*q to the nearest place, TDigest rounds down). C127_merged_differs: with D items the claim fails.")
c("C128", "proved", "C128_quantile_low C128_quantile_high C128_quantile_sure C128_value_low C128_value_high C128_example", "Companion of C95 for RCSketch2.")
c("C129", "proved", "C129_quantile_f64 C129_value_f64 C129_quantile_f32 C129_value_f32 C129_example C129_full_differs", "C127 through the buffer. C129_full_differs: with D items the claim fails.")
c("C130", "proved", "RCSketch.C130_never_panics RCSketch.C130_missing_level_panics RCSketch.C130_weight RCSketch.C130_rank_error RCSketch.C130_stored RCSketch.C130_unbiased RCSketch.C130_mean_squared_error RCSketch.C130_count RCSketch.C130_interpolate_rank RCSketch.C130_example RCSketch.C130_quantile_above_one", "Any rounding. C130_quantile_above_one is the finding: the level-wise functions leave count alone.")
c("C131", "proved", "RCSketch.C131_never_panics RCSketch.C131_count RCSketch.C131_weight RCSketch.C131_rank_error RCSketch.C131_interpolate_rank RCSketch.C131_unbiased RCSketch.C131_mean_squared_error RCSketch.C131_example", "Any rounding. The merging loop is client code (RCSketch.mergeInto); everything it calls is the crate's.")
c("C132", "proved", "RCSketch.C132_unbiased RCSketch.C132_mean_squared_error RCSketch.C132_tail RCSketch.C132_example", "Any rounding. Extends C10, C61 and C62, which assume N <= n.")
c("C133", "proved", "MergeTree.C133_count MergeTree.C133_weight MergeTree.C133_interpolate_rank MergeTree.C133_never_panics MergeTree.C133_unbiased MergeTree.C133_mean_squared_error MergeTree.C133_tail MergeTree.C133_shards MergeTree.C133_example MergeTree.C133_shards_example", "Any rounding. The merge is a client of the public interface (buffers and count are public fields, insert_at_rc_batch is public); the code has no merge function for RCSketch.")
c("C134", "proved", "C134_count_and_size C134_update_sections_idle C134_never_panics C134_never_panics_average C134_levels C134_rank_queries_never_panic C134_grow_breaks_rank_queries C134_rank_error_bound C134_rank_unbiased C134_mean_squared_error C134_interpolate_unbiased C134_interpolate_squared_error C134_low_ranks_exact C134_example", "Any rounding. Not included: get_compact_index and compact_buffer, which hand unfinished work to the caller. The bound of 14 grow calls is sufficient, not claimed to be sharp.")
c("C135", "proved", "C135_conserved C135_count C135_queries C135_error_k0 C135_value_error_k0 C135_shards C135_size_k0 C135_size_k2_k3 C135_round C135_f64 C135_extremes_lost C135_example", "Exact arithmetic except C135_round (any monotone rounding with room) and C135_f64. Value errors exclude the right half of the last centroid (C84). The loss of the extremes is a finding, with the witness C135_extremes_lost.")
c("C136", "proved", "C136_quantile_round C136_value_round C136_quantile_f64 C136_value_f64 C136_shards_f64 C136_quantile_f32 C136_value_f32 C136_example", "C136_quantile_round and C136_value_round hold in any correctly rounding arithmetic with relative error u and the stated room.")
c("C137", "proved", "C137_k2 C137_k3 C137_history_k2 C137_history_k3 C137_example", "Exact arithmetic over the reals (the scale functions use log and exp). The summand H is in terms of the centroids actually next to the queried point, since after several batches a heavy centroid may tie with light ones and the unstable sort may put it first.")
c("C138", "proved", "MergeTree.C138_value_returns MergeTree.C138_value_tail MergeTree.C138_quantile_eq MergeTree.C138_quantile_tail MergeTree.C138_shards MergeTree.C138_beyond MergeTree.C138_shards_example MergeTree.C138_example", "Value queries hold in any arithmetic that counts exactly up to N (f64, instance in MergeTree.C138_shards_example); the tail of quantile queries is for exact arithmetic. The merge also sets count, as in C131.")
c("C139", "proved", "C139_error C139_value C139_shards_k1 C139_history_k1 C139_example", "Exact arithmetic over the reals. k2_asym and k2n: see C155. For k1 the bound holds for every compression factor, including those where inv_k1 turns back at the right end.")
c("C140", "proved", "C140_k1 C140_example", "Exact arithmetic over the reals. Counterpart for k1 of C86 (k2, k3).")
c("C141", "proved", "C141_k1 C141_history_k1 C141_example", "Exact arithmetic over the reals. Counterpart for k1 of C137 (k2, k3); compression factors may differ between the digests.")
c("C142", "proved", "C142_quantile C142_value C142_example", "Exact arithmetic over the reals. C109 is the case k0 over any ordered field.")
c("C143", "proved", "C143_quantile C143_value C143_example", "Exact arithmetic over the reals. Counterpart of C137 for ParTDigest.")
c("C144", "proved", "C144_quantile C144_value C144_example", "Exact arithmetic over the reals. Counterpart of C141 for ParTDigest.")
c("C145", "proved", "C145_k2_asym C145_history C145_example", "Exact arithmetic over the reals. Nothing comparable holds at the upper end; SymDigest is meant for that (C147).")
c("C146", "proved", "C146_state C146_quantile C146_value C146_example", "Exact arithmetic over the reals. Counterpart of C145 for ParTDigest.")
c("C147", "proved", "C147_quantile C147_value C147_example", "Exact arithmetic over the reals. The two sides run the same calls, the upper one negated; the result for q = 1/2 is covered by C54 (average of the sides).")
c("C148", "proved", "C148_ranks_add C148_tdigests C148_example", "Exact arithmetic. C102 is the analogue for expected squared errors.")
c("C149", "proved", "C149_relative C149_example", "Exact arithmetic over the reals.")
c("C150", "proved", "C150_quantile C150_value C150_example", "Exact arithmetic over the reals; explicit calls of flush included.")
c("C151", "proved", "C151_quantile C151_value C151_example", "Exact arithmetic over the reals; explicit calls of flush included.")
c("C152", "proved", "C152_quantile C152_value C152_example", "Exact arithmetic over the reals; explicit calls of flush included.")
c("C153", "proved", "C153_ranks_average C153_values_between C153_tdigests C153_example", "Exact arithmetic. C73, C74 and C103 are the analogues for expected squared errors.")
c("C154", "proved", "C154_quantile C154_value C154_tdigests C154_example", "Exact arithmetic. C147 adds the relative accuracy at both ends for k2_asym.")
c("C155", "proved", "C155_error C155_value C155_history_k2n C155_example", "Exact arithmetic. Extends C139 (k0 to k3, one fraction for all passes) to k2_asym and k2n; G need not be monotone.")
c("C156", "proved", "C156_counters C156_less_than_sum C156_insert C156_closest_keys C156_logarithmic C156_increasing_order C156_example", "That rand's shuffle makes all orders equally likely is trusted. Keys inserted later, by add_cluster_tree itself, are not in random order and are not covered.")
c("C157", "proved", "MergeTree.C157_tail MergeTree.C157_plain MergeTree.C157_shards MergeTree.C157_example", "Exponential moments with rational bases: the mean of a^error is at most ((a+1/a)/2)^V for every rational a >= 1, by a supermartingale over the compactions; the base is then optimised over the reals.")
c("C158", "proved", "MergeTree.C158_all_ranks MergeTree.C158_all_values MergeTree.C158_plain MergeTree.C158_plain_values MergeTree.C158_example", "Two pivot items per strip of N/m ranks suffice because true and estimated ranks are monotone and change only at supplied items; one-sided tails of C157 at the pivots and a union bound.")
c("C159", "proved", "C159_tail C159_tail_k C159_example", "Same method as C157 for the levels of RCSketch2, with the sure bound of C98 on the compactions.")
c("C160", "proved", "C160_all_ranks C160_all_values C160_all_ranks_k C160_all_values_k C160_example", "Pivot items and union bound as in C158; value queries also use the error of the total stored weight.")
c("C161", "proved", "C161_multi C161_multi_tail C161_multi_rcsketch C161_multi_rcsketch2 Spec.Concentrates.tail rc_concentrates rc2_concentrates C161_example", "Exact arithmetic. Spec.Concentrates states integrality, count and moment bounds of an answer; members are independent, so moments multiply.")
c("C162", "proved", "C162_parallel C162_parallel_rcsketch C162_parallel_rcsketch2 parallel_signs C162_example", "Exact arithmetic. Shares as in C102.")
c("C163", "proved", "C163_relative_tail C163_relative_tail_fast C163_example RCSketch.relative_tail", "The number of compactions that matter for x is itself random, so the exponential moments are taken on the event that no level has seen more than twice the rank; leaving that event is bounded level by level with the same moments.")
c("C164", "proved", "C164_all_ranks C164_all_values C164_example all_ranks_rel", "Two pivot items per power of 1+e suffice because true and estimated ranks are monotone and change only at supplied items. Only the logarithm of the number of items enters the probability.")
c("C165", "proved", "C165_relative_tail C165_example RCSketch2.relative_tail2 calm_relative", "The number of compactions that matter for x is itself random, so the exponential moments are taken on the event that no level has seen more than twice the rank; leaving that event is bounded level by level with the same moments.")
c("C166", "proved", "C166_all_ranks C166_all_values C166_example all_ranks_rel", "The factor 1-3e on the right is needed because RCSketch2 may store a total weight below N, so a target near N can fall past the last item (C64).")
c("C167", "proved", "C167_all_quantiles C167_all_values C167_all_quantiles_rc2 C167_all_values_rc2 C167_example sym_union sym_accurate sym_values", "Unlike C95 and C128 there is no gap around the middle: the count on the side the comparison picks is at most twice the count on the other side.")
c("C168", "proved", "C168_multi C168_multi_values C168_parallel C168_parallel_values C168_multi_rcsketch C168_multi_rcsketch2 C168_parallel_rcsketch C168_parallel_rcsketch2 C168_example multi_relQ multi_values parallel_relQ parallel_values multi_union feed_union", "The shares are those of Spec/Share.lean (C102); a share may not be empty because an empty sketch answers NaN (C50). The tolerance of value queries of the ParallelDigest is that of its bisection (C51).")
c("C169", "proved", "C169_multi C169_parallel C169_sym rc_relSure rc2_relSure C169_example C169_unequal_members", "C169_example: a SymDigest of two ParallelDigests of four MultiDigests of three RCSketches. C169_unequal_members is the witness that unequal counts spoil the weighting (a consequence of C56).")
c("C170", "proved", "C170_buffered C170_buffered_rcsketch C170_buffered_rcsketch2 C170_buffered_values C170_buffered_rcsketch_values C170_buffered_rcsketch2_values C170_example", "C170_example: capacity 1000 around RCSketch::new(1000000, 100), a million single insertions, failure probability at most 1e-5.")
c("C171", "proved", "C171_quantile C171_value_shift C171_value_scale C171_last_tail_not_scaled", "The value statements assume at least one item, fewer than 2^64 items and a chunk length other than 0. C171_last_tail_not_scaled is the witness for the exception, which ParTDigest inherits from TDigest (C113).")
c("C172", "proved", "C172_answers C172_multi C172_buffered C172_parallel C172_sym C172_boxed C172_tdigest C172_partdigest C172_rcsketch C172_rcsketch2 C172_linear C172_deepNest C172_sketchNest C172_value_search_depends_on_origin", "`Equi` is hypothesis and conclusion of the wrapper theorems, so they compose; C172_deepNest and C172_sketchNest are two nestings written out. C172_value_search_depends_on_origin shows why value queries are left out.")
c("C173", "proved", "C173_answers C173_multi C173_buffered C173_sym C173_boxed C173_rcsketch C173_rcsketch2 C173_linear C173_sketchNest C173_mixed C173_empty_tdigest_not_shifted", "`EquiV` is hypothesis and conclusion of the wrapper theorems, so they compose; a MultiDigest without members answers NaN on both sides. ParallelDigest is left out because of C172_value_search_depends_on_origin, t-digests because of C173_empty_tdigest_not_shifted and C113_last_tail_not_scaled.")
c("C174", "proved", "C174_tdigest C174_buffered C174_partdigest C174_equal_means_may_change", "C174_equal_means_may_change shows that the proviso cannot be dropped in the model, where an unstable sort may leave equal means in any order.")
c("C175", "proved", "C175_answers C175_multi C175_sym C175_boxed C175_tdigest C175_partdigest C175_rcsketch C175_rcsketch2 C175_nest C175_buffered C175_buffered_nest C175_buffered_nest2 C175_linear_sorts", "A BufferedDigest around a TDigest is the subject of C174; ParallelDigest is not treated.")
json.dump({"claims": C}, open("/verif/MANIFEST.json", "w"), indent=1)
