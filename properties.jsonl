{"id": "C01", "title": "LinearDigest value query is the true order statistic", "statement": "After any history of adds, buffer adds and queries on a LinearDigest holding n>=1 non-NaN values, est_value_at_quantile(q) with 0<=q<=1 does not panic and returns the element of the sorted data at index min(round(q*n), n-1); the data is unchanged as a multiset.", "quantifier": "all histories, all data, all q in [0,1]", "why_tests_cant": "infinitely many data sets and quantiles; sorting in place inside a query interacts with every later call", "anchors": ["src/util/linear_digest.rs:est_value_at_quantile"]}
{"id": "C02", "title": "LinearDigest quantile query is the mid-rank fraction, in [0,1] and monotone", "statement": "est_quantile_at_value(v) equals (#values<v, plus half of #values==v when at least two are equal)/n, lies in [0,1], and v<=w implies answer(v)<=answer(w).", "quantifier": "all non-empty data sets, all v,w", "why_tests_cant": "monotonicity relates all pairs of queries over all data", "anchors": ["src/util/linear_digest.rs:est_quantile_at_value"]}
{"id": "C03", "title": "LinearDigest answers depend only on the multiset of inputs", "statement": "Two LinearDigest histories (any order, any split into add/add_buffer, any interleaved queries) that supply the same multiset of values give identical answers to both queries and the same count.", "quantifier": "all pairs of histories with permuted inputs", "why_tests_cant": "order independence ranges over all permutations and all interleavings with queries (which reorder storage)", "anchors": ["src/util/linear_digest.rs"]}
{"id": "C04", "title": "weighted_average never leaves the interval of its two values", "statement": "For any two non-NaN values and any weights whatever (negative, zero sum, infinite, NaN), under any floating point rounding, weighted_average(x1,w1,x2,w2) lies in [min(x1,x2), max(x1,x2)].", "quantifier": "all values, all weights, all rounding functions", "why_tests_cant": "includes zero-sum and NaN weights and every rounding error", "anchors": ["src/util/mod.rs:weighted_average"]}
{"id": "C05", "title": "RCSketch count is exact", "statement": "After any sequence of add, add_buffer, add_buffer_fast, add_buffer_custom (either compaction method) calls that return, with any random choices, count() equals the number of items supplied.", "quantifier": "all histories, all coin flips", "why_tests_cant": "random compaction and unbounded histories", "anchors": ["src/rc_sketch/rc_sketch.rs:add", "src/rc_sketch/rc_sketch.rs:add_buffer", "src/rc_sketch/rc_sketch.rs:add_buffer_custom"]}
{"id": "C06", "title": "RCSketch buffers stay strictly below their capacity between calls", "statement": "After every call that returns, every internal buffer of an RCSketch holds fewer than buffer_size items, so memory is at most buffer_size times the number of levels.", "quantifier": "all histories, all coin flips", "why_tests_cant": "needs an invariant across recursive cascades of compactions", "anchors": ["src/rc_sketch/rc_sketch.rs:insert_at_rc", "src/rc_sketch/rc_sketch.rs:insert_at_rc_batch"]}
{"id": "C07", "title": "RCSketch never panics within its declared input length", "statement": "A sketch created with new(n,k), k>=1, fed at most n < 2^32 non-NaN items in total (default and fast compaction mixed in any way, any coin flips; AverageNeighbour for finite items whose double does not overflow) accepts all of them without a panic: the compaction index never underflows, recursion ends. For even k the queries on the non-empty sketch never panic either.", "quantifier": "all n,k, all histories within the bound, all coin flips", "why_tests_cant": "index arithmetic buffer_len-(trailing_ones+1)*k can underflow only at rare counter values; termination of the cascade", "anchors": ["src/rc_sketch/rc_sketch.rs:get_compact_index", "src/rc_sketch/rc_sketch.rs:insert_at_rc_batch", "src/rc_sketch/rc_sketch.rs:calc_buffer_size"]}
{"id": "C08", "title": "RCSketch conserves total weight", "statement": "The total weight of the stored items (weight 2^level) always equals the number of items seen, hence est_quantile_at_value never exceeds 1 and equals 1 at or above the largest item.", "quantifier": "all k, all histories, all coin flips", "why_tests_cant": "must hold for every compaction size parity and coin", "anchors": ["src/rc_sketch/rc_sketch.rs:compact", "src/rc_sketch/rc_sketch.rs:est_quantile_at_value"]}
{"id": "C09", "title": "RCSketch deterministic rank error bound", "statement": "For every value x the estimated rank differs from the true number of inserted items <= x by at most sum over levels h of 2^h times the number of compactions performed at level h, whatever the coins; with AverageNeighbour for finite items whose double does not overflow.", "quantifier": "all x, all histories, all coin flips, both compaction methods", "why_tests_cant": "worst case over all coin flips and inputs", "anchors": ["src/rc_sketch/rc_sketch.rs:compact", "src/rc_sketch/rc_sketch.rs:interpolate_rank"]}
{"id": "C10", "title": "RCSketch rank estimates are unbiased", "statement": "With fair independent coins (default compaction method) the expected value of the estimated rank of x equals the true rank of x, for every x and every history within the declared input length: the weighted number of stored items <= x for all k, and the answer of interpolate_rank for even k.", "quantifier": "all histories within input length, all x; expectation over all coin flips", "why_tests_cant": "expectation over exponentially many coin sequences", "anchors": ["src/rc_sketch/rc_sketch.rs:compact", "src/rc_sketch/rc_sketch.rs:interpolate_rank"]}
{"id": "C11", "title": "RCSketch ranks are exact at the low end", "statement": "Within the declared input length, for every x whose true rank is at most buffer_size/2 the estimated rank is exactly the true rank, whatever the coins.", "quantifier": "all histories within input length, all x of low rank, all coin flips", "why_tests_cant": "the relative-error guarantee concerns every history and every coin", "anchors": ["src/rc_sketch/rc_sketch.rs:get_compact_index", "src/rc_sketch/rc_sketch.rs:get_compact_index_fast", "src/rc_sketch/rc_sketch.rs:interpolate_rank"]}
{"id": "C12", "title": "RCSketch quantile estimates are monotone in the value", "statement": "For x<=y, interpolate_rank(x)<=interpolate_rank(y) and est_quantile_at_value(x)<=est_quantile_at_value(y) on any non-empty sketch, under any monotone floating-point rounding.", "quantifier": "all sketches, all x<=y, all monotone roundings", "why_tests_cant": "all pairs", "anchors": ["src/rc_sketch/rc_sketch.rs:interpolate_rank", "src/rc_sketch/rc_sketch.rs:est_quantile_at_value"]}
{"id": "C13", "title": "RCSketch value estimates are real inputs", "statement": "With default compaction est_value_at_quantile returns one of the inserted items; with AverageNeighbour and finite items whose double does not overflow it lies between the smallest and largest inserted item.", "quantifier": "all histories, all coins, all q", "why_tests_cant": "unbounded histories", "anchors": ["src/rc_sketch/rc_sketch.rs:est_value_at_quantile", "src/rc_sketch/rc_sketch.rs:compact"]}
{"id": "C14", "title": "RCSketch value estimates are monotone in the quantile", "statement": "For q1<=q2 est_value_at_quantile(q1)<=est_value_at_quantile(q2) on every non-empty sketch.", "quantifier": "all sketches, all q1<=q2, all monotone roundings", "why_tests_cant": "all pairs of quantiles", "anchors": ["src/rc_sketch/rc_sketch.rs:est_value_at_quantile"]}
{"id": "C15", "title": "RCSketch memory is logarithmic", "statement": "For even k, within the declared input length, a sketch that has seen c>=1 items has at most log2(c)+1 levels, each below buffer_size items.", "quantifier": "all histories within input length, all coins", "why_tests_cant": "asymptotic claim", "anchors": ["src/rc_sketch/rc_sketch.rs:insert_at_rc_batch"]}
{"id": "C16", "title": "RCSketch add_buffer is the same as adding one item at a time", "statement": "Within the declared input length, add_buffer(items) has exactly the same distribution over resulting sketches as calling add for each item in order.", "quantifier": "all sketches reachable within input length, all item slices", "why_tests_cant": "two different code paths (insert_at_rc, chunked insert_at_rc_batch) must agree for every state", "anchors": ["src/rc_sketch/rc_sketch.rs:add", "src/rc_sketch/rc_sketch.rs:add_buffer", "src/rc_sketch/rc_sketch.rs:insert_at_rc", "src/rc_sketch/rc_sketch.rs:insert_at_rc_batch"]}
{"id": "C17", "title": "RCSketch value and quantile queries are mutually consistent", "statement": "est_value_at_quantile(q) is the least stored value v whose estimated rank exceeds q*count; when no stored value has that rank it is the largest stored value (at most 31 levels, and weights that the float type represents exactly).", "quantifier": "all non-empty sketches, all q", "why_tests_cant": "relates two independent code paths (sorted scan and per-buffer counting) over all states", "anchors": ["src/rc_sketch/rc_sketch.rs:est_value_at_quantile", "src/rc_sketch/rc_sketch.rs:interpolate_rank"]}
{"id": "C18", "title": "RCSketch2 count and size bookkeeping are exact", "statement": "After any sequence of calls that return, count() equals the number of items supplied and sketch_size equals the number of items actually stored.", "quantifier": "all histories, all coins", "why_tests_cant": "several in-place += / -= updates spread over compress/compact_buffer", "anchors": ["src/rc_sketch/rc_sketch2.rs:insert", "src/rc_sketch/rc_sketch2.rs:compress", "src/rc_sketch/rc_sketch2.rs:compact_buffer"]}
{"id": "C19", "title": "RCSketch2 add never panics", "statement": "While section sizes stay at least 1 and a doubling of the sections does not shrink a level's capacity (k>=4 in exact arithmetic, 4<=k<2^24 in the f32 arithmetic of the code), any sequence of add / add_buffer / add_buffer_fast calls with fewer than 2^32 non-NaN items never panics (no index underflow, no out-of-range split, the capacity assertion holds); with k>=32 (k>=33 in f32) queries on a non-empty sketch never panic either.", "quantifier": "all histories, all coins", "why_tests_cant": "depends on relation between counters, trailing ones and number of sections", "anchors": ["src/rc_sketch/rc_sketch2.rs:get_compact_index", "src/rc_sketch/rc_sketch2.rs:update_sections", "src/rc_sketch/rc_sketch2.rs:insert_batch"]}
{"id": "C20", "title": "RCSketch2 never stores more than its capacity", "statement": "After every insertion call that returns, the number of stored items is at most the sketch capacity (sum of the per-level capacities).", "quantifier": "all histories, all coins, all section size roundings that do not shrink a level's capacity", "why_tests_cant": "invariant over all compaction cascades", "anchors": ["src/rc_sketch/rc_sketch2.rs:get_sketch_capacity", "src/rc_sketch/rc_sketch2.rs:compress"]}
{"id": "C21", "title": "RCSketch2 deterministic rank error bound", "statement": "For every x the estimated rank differs from the true rank by at most sum over levels h of 2^h times the number of compactions performed at level h, whatever the coins; with AverageNeighbour for finite items whose double does not overflow.", "quantifier": "all x, all histories, all coins, both methods", "why_tests_cant": "worst case over all coin flips", "anchors": ["src/rc_sketch/rc_sketch2.rs:compact_buffer", "src/rc_sketch/rc_sketch2.rs:interpolate_rank"]}
{"id": "C22", "title": "RCSketch2 rank estimates are unbiased", "statement": "With fair coins, section sizes that keep insertions from panicking (k>=4 in exact arithmetic, 4<=k<2^24 in the f32 arithmetic of the code), default/fast compaction and fewer than 2^32 non-NaN items the expected estimated rank of every x equals its true rank.", "quantifier": "all histories, all x; expectation over coins", "why_tests_cant": "expectation over exponentially many coin sequences", "anchors": ["src/rc_sketch/rc_sketch2.rs:compact_buffer"]}
{"id": "C23", "title": "RCSketch2 ranks are exact at the low end", "statement": "For section sizes that keep insertions from panicking (k>=4 in exact arithmetic, 4<=k<2^24 in the f32 arithmetic of the code) and default/fast compaction, the estimated rank of every x whose true rank is at most P, half the initial capacity of level 0, is exact whenever the calls return.", "quantifier": "all histories, all x of rank <= P, all coins", "why_tests_cant": "every history and coin", "anchors": ["src/rc_sketch/rc_sketch2.rs:get_compact_index", "src/rc_sketch/rc_sketch2.rs:compact_buffer"]}
{"id": "C24", "title": "RCSketch2 queries are monotone and return inserted items", "statement": "est_quantile_at_value is monotone in the value, est_value_at_quantile is monotone in the quantile and (default compaction) returns an inserted item.", "quantifier": "all sketches/histories, all pairs of queries", "why_tests_cant": "all pairs", "anchors": ["src/rc_sketch/rc_sketch2.rs:est_quantile_at_value", "src/rc_sketch/rc_sketch2.rs:est_value_at_quantile"]}
{"id": "C25", "title": "KeyedSumTree prefix sums are correct after insertions", "statement": "After inserting any list of (key, weight) pairs with distinct keys in any order, less_than_sum(key) is the sum of the weights of keys strictly below key (None when empty); inserting a duplicate key panics.", "quantifier": "all insertion sequences, all keys; exact arithmetic", "why_tests_cant": "all tree shapes", "anchors": ["src/util/keyed_sum_tree.rs:insert", "src/util/keyed_sum_tree.rs:less_than_sum"]}
{"id": "C26", "title": "KeyedSumTree contents are the inserted minus deleted pairs, in key order", "statement": "After any sequence of inserts of fresh keys and deletes of present keys, sorted_vec_key returns exactly the remaining (key,weight) pairs in strictly increasing key order, and size() is their number.", "quantifier": "all operation sequences", "why_tests_cant": "all tree shapes, including two-child deletions", "anchors": ["src/util/keyed_sum_tree.rs:delete", "src/util/keyed_sum_tree.rs:rightmost_child", "src/util/keyed_sum_tree.rs:sorted_vec_key", "src/util/keyed_sum_tree.rs:size"]}
{"id": "C27", "title": "KeyedSumTree prefix sums stay correct after deletions", "statement": "less_than_sum(key) equals the sum of remaining weights with key strictly below, also after deletions.", "quantifier": "all operation sequences; exact arithmetic", "why_tests_cant": "only particular tree shapes expose a stale subtree sum", "anchors": ["src/util/keyed_sum_tree.rs:delete", "src/util/keyed_sum_tree.rs:less_than_sum"]}
{"id": "C28", "title": "KeyedSumTree closest_keys finds the nearest key", "statement": "On a non-empty tree closest_keys(t) is non-empty, every returned pair is stored in the tree, every key at minimal distance from t is returned, and nothing further than 0.001 beyond the minimal distance is.", "quantifier": "all reachable trees, all targets; exact arithmetic", "why_tests_cant": "all tree shapes", "anchors": ["src/util/keyed_sum_tree.rs:closest_keys"]}
{"id": "C29", "title": "TDigest weight and count are exact", "statement": "After any history of add / add_buffer / add_centroid_buffer calls the total weight equals the total supplied weight and count() equals the number of items for unit-weight histories, for every scale function.", "quantifier": "all histories, all scale functions, exact arithmetic", "why_tests_cant": "arbitrary user-supplied scale functions and histories", "anchors": ["src/t_digest/t_digest.rs:add_centroid_buffer", "src/t_digest/t_digest.rs:count"]}
{"id": "C30", "title": "TDigest tracks the exact minimum and maximum", "statement": "After any history of at least one item, min and max are exactly the smallest and largest item ever supplied.", "quantifier": "all histories, all scale functions, any rounding", "why_tests_cant": "all histories", "anchors": ["src/t_digest/t_digest.rs:add_centroid_buffer"]}
{"id": "C31", "title": "TDigest centroids are sorted and within the data range", "statement": "After any history centroid means are in non-decreasing order, weights are positive and all means lie in [min,max].", "quantifier": "all histories, all scale functions, exact arithmetic", "why_tests_cant": "all merge decisions", "anchors": ["src/t_digest/t_digest.rs:add_centroid_buffer"]}
{"id": "C32", "title": "TDigest conserves the sum of the data", "statement": "The sum of mean*weight over centroids equals the sum of all supplied items.", "quantifier": "all histories, all scale functions, exact arithmetic", "why_tests_cant": "all merge decisions", "anchors": ["src/t_digest/t_digest.rs:add_centroid_buffer"]}
{"id": "C33", "title": "TDigest merging only joins neighbours", "statement": "Each merge pass replaces consecutive runs of the sorted centroids by their weighted mean: the new centroids are the weighted means of a partition of the sorted input into consecutive non-empty runs; a run has more than one member only when its weight is within the scale-function limit.", "quantifier": "all inputs, all scale functions, exact arithmetic", "why_tests_cant": "all run boundaries", "anchors": ["src/t_digest/t_digest.rs:add_centroid_buffer"]}
{"id": "C34", "title": "TDigest quantile estimates are probabilities and never panic", "statement": "On a non-empty digest whose centroids have weight at least 1 est_quantile_at_value never panics for a finite value, lies in [0,1], is 0 below min and 1 above max; on the empty digest it is NaN.", "quantifier": "all reachable digests, all finite values; exact arithmetic", "why_tests_cant": "panic branch 'fell through loop' must be unreachable", "anchors": ["src/t_digest/t_digest.rs:est_quantile_at_value"]}
{"id": "C35", "title": "TDigest quantile estimates are monotone", "statement": "For v<=w, est_quantile_at_value(v)<=est_quantile_at_value(w).", "quantifier": "all reachable digests, all pairs; exact arithmetic", "why_tests_cant": "piecewise formula with many boundary cases", "anchors": ["src/t_digest/t_digest.rs:est_quantile_at_value"]}
{"id": "C36", "title": "TDigest value estimates stay within the data range", "statement": "est_value_at_quantile(q), 0<=q<=1, is a number in [min,max] for every non-empty digest.", "quantifier": "all reachable digests, all q; exact arithmetic", "why_tests_cant": "interpolation formulas at the tails", "anchors": ["src/t_digest/t_digest.rs:est_value_at_quantile"]}
{"id": "C37", "title": "TDigest extreme quantiles are exact", "statement": "est_value_at_quantile(0)=min and est_value_at_quantile(1)=max on every non-empty unit-weight digest.", "quantifier": "all reachable digests; exact arithmetic", "why_tests_cant": "all histories", "anchors": ["src/t_digest/t_digest.rs:est_value_at_quantile"]}
{"id": "C38", "title": "TDigest value query never panics on a non-empty digest", "statement": "est_value_at_quantile(q) returns (no out-of-bounds centroid index) for every finite q and every non-empty digest whose centroids have weight at least 1.", "quantifier": "all reachable digests, all finite q; exact arithmetic", "why_tests_cant": "loop runs over total_weight rather than the number of centroids", "anchors": ["src/t_digest/t_digest.rs:est_value_at_quantile"]}
{"id": "C39", "title": "TDigest is exact before compression", "statement": "While no two items have been merged, a digest of n>=2 items gives the same est_quantile_at_value as the exact LinearDigest for every value.", "quantifier": "all data sets of size >= 2, all values; exact arithmetic", "why_tests_cant": "ties, end points and gaps", "anchors": ["src/t_digest/t_digest.rs:est_quantile_at_value", "src/util/linear_digest.rs:est_quantile_at_value"]}
{"id": "C40", "title": "TDigest size is bounded by the compression factor", "statement": "After any add_buffer the number of centroids is at most compress_factor + 1 when the uniform scale function k0 is used, independent of the number of items.", "quantifier": "all data, all compression factors > 0; exact arithmetic", "why_tests_cant": "independent of input size", "anchors": ["src/t_digest/t_digest.rs:add_centroid_buffer", "src/t_digest/scale_functions.rs:k0"]}
{"id": "C41", "title": "TDigest add_cluster conserves weight, sum and limits", "statement": "add_cluster adds exactly the supplied weight and mass to the digest, updates min/max to cover the new items, and leaves at most max(limit, merged size) centroids.", "quantifier": "all digests (sorted or not), all clusters, all scale functions; exact arithmetic", "why_tests_cant": "periodic re-merging and branchy insertion", "anchors": ["src/t_digest/t_digest.rs:add_cluster", "src/t_digest/t_digest.rs:update_limits"]}
{"id": "C42", "title": "TDigest find_closest_centroids returns a valid range containing a nearest centroid", "statement": "For a non-empty digest with sorted means, the returned range is non-empty, within bounds, and contains a centroid at minimal distance from the target; it is None exactly for the empty digest.", "quantifier": "all sorted digests, all targets", "why_tests_cant": "binary search plus range adjustment boundary cases", "anchors": ["src/t_digest/t_digest.rs:find_closest_centroids"]}
{"id": "C43", "title": "TDigest add_cluster_tree conserves weight and sum", "statement": "If add_cluster_tree returns, the total weight and mass have grown by exactly those of the clusters, the means are strictly increasing, and with k0 and growth limit g at most max(g*d, d+1) centroids are left; duplicate means make it panic rather than lose weight.", "quantifier": "all digests, all clusters, all shuffles; exact arithmetic", "why_tests_cant": "random shuffles and tree shapes", "anchors": ["src/t_digest/t_digest.rs:add_cluster_tree", "src/util/keyed_sum_tree.rs"]}
{"id": "C44", "title": "TDigest value estimates are monotone in the quantile", "statement": "For q1<=q2, est_value_at_quantile(q1)<=est_value_at_quantile(q2).", "quantifier": "all reachable digests, all pairs q1<=q2; exact arithmetic", "why_tests_cant": "piecewise formula", "anchors": ["src/t_digest/t_digest.rs:est_value_at_quantile"]}
{"id": "C45", "title": "ParTDigest loses no items across flushes", "statement": "After any history of adds, buffer adds, flushes and queries, count() equals the number of items supplied; queries flush everything first.", "quantifier": "all histories, all thread/capacity parameters >= 1; exact arithmetic", "why_tests_cant": "buffering boundaries", "anchors": ["src/t_digest/par_t_digest.rs:flush", "src/t_digest/par_t_digest.rs:count"]}
{"id": "C46", "title": "ParTDigest tracks the exact minimum and maximum across flushes", "statement": "After a flush the digest's min and max are the smallest and largest items ever supplied.", "quantifier": "all histories with several flushes; exact arithmetic", "why_tests_cant": "needs at least two flushes with particular data", "anchors": ["src/t_digest/par_t_digest.rs:flush"]}
{"id": "C47", "title": "BufferedDigest is transparent", "statement": "For any inner digest, a BufferedDigest delivers to it exactly the supplied items in order, each once, before answering any query, and count() equals inner count plus pending items; over LinearDigest it answers exactly like LinearDigest.", "quantifier": "all inner digests, all histories, all capacities >= 1", "why_tests_cant": "generic in the inner digest, all interleavings", "anchors": ["src/buffered_digest.rs"]}
{"id": "C48", "title": "BufferedDigest buffer is bounded", "statement": "After every call the pending buffer holds at most capacity items.", "quantifier": "all histories, capacity >= 1", "why_tests_cant": "all histories", "anchors": ["src/buffered_digest.rs:add", "src/buffered_digest.rs:add_buffer"]}
{"id": "C49", "title": "ParallelDigest distributes every item exactly once", "statement": "add_buffer of a non-empty slice to a ParallelDigest with d>=1 sub-digests delivers consecutive chunks, whose concatenation is the slice, to distinct sub-digests; count() grows by exactly the slice length. After any history the stored minimum and maximum are those of the items.", "quantifier": "all slice lengths, all d >= 1", "why_tests_cant": "ceil division boundary", "anchors": ["src/parallel_digest.rs:add_buffer", "src/parallel_digest.rs:count"]}
{"id": "C50", "title": "ParallelDigest quantile estimate is the count-weighted mean", "statement": "est_quantile_at_value is the average of the sub-digest estimates weighted by their counts, hence in [0,1] and monotone if the sub-digests are.", "quantifier": "all sub-digests; exact arithmetic", "why_tests_cant": "generic in the sub-digest", "anchors": ["src/parallel_digest.rs:est_quantile_at_value"]}
{"id": "C51", "title": "ParallelDigest value search terminates inside [min,max]", "statement": "est_value_at_quantile performs at most 20 bisection steps and returns a value in [min,max], i.e. between the smallest and the largest item; if the returned value is not the final upper end then its estimated quantile is at least the target.", "quantifier": "all sub-digest behaviours, all targets, all data; exact arithmetic except for the range of the value", "why_tests_cant": "termination of a numeric loop", "anchors": ["src/parallel_digest.rs:est_value_at_quantile"]}
{"id": "C52", "title": "ParallelDigest accepts empty buffers", "statement": "add_buffer(&[]) is a no-op that does not panic.", "quantifier": "all digests", "why_tests_cant": "boundary input", "anchors": ["src/parallel_digest.rs:add_buffer"]}
{"id": "C53", "title": "SymDigest is mirror symmetric", "statement": "Feeding the negated data to a SymDigest built from the same digests swapped gives est_value_at_quantile(1-q) = -est_value_at_quantile(q), for every underlying deterministic digest.", "quantifier": "all underlying digests, all histories, all q; exact arithmetic", "why_tests_cant": "generic in the underlying digest", "anchors": ["src/sym_digest.rs"]}
{"id": "C54", "title": "SymDigest answers with one of its two sides or their average", "statement": "est_value/est_quantile return the low side below the median, the high side above, their average at the median; the answer always lies between the two sides' estimates; count() is the number of items seen.", "quantifier": "all underlying digests, all histories; exact arithmetic", "why_tests_cant": "generic", "anchors": ["src/sym_digest.rs"]}
{"id": "C55", "title": "MultiDigest estimates lie between its members' estimates", "statement": "Both estimates are the mean of the members' estimates and lie between the smallest and largest of them (NaN when there are no members).", "quantifier": "all member digests; exact arithmetic", "why_tests_cant": "generic", "anchors": ["src/multi_digest.rs"]}
{"id": "C56", "title": "MultiDigest count is the number of items seen", "statement": "count() equals the number of items supplied.", "quantifier": "all member lists, all histories", "why_tests_cant": "depends on the number of members", "anchors": ["src/multi_digest.rs:count"]}
{"id": "C57", "title": "Scale functions and their inverses are inverse to each other", "statement": "inv_k(k(q)) = q for each pair k0,k1,k2,k2_asym,k2n,k3 on the quantile domain, for every compression factor and count for which the normaliser is positive.", "quantifier": "all q in the open unit interval, all compression factors, all counts", "why_tests_cant": "real-valued identity", "anchors": ["src/t_digest/scale_functions.rs"]}
{"id": "C58", "title": "Scale functions are increasing", "statement": "Each scale function is strictly increasing in the quantile on (0,1).", "quantifier": "all q1<q2, all parameters", "why_tests_cant": "real-valued inequality", "anchors": ["src/t_digest/scale_functions.rs"]}
{"id": "C59", "title": "opt_accuracy_parameter terminates with a bracketed parameter", "statement": "With epsilon>0 and max_param>0 the search terminates; the result lies in (0,max_param], is max_param or a parameter that passed, and is within epsilon of a parameter that failed (or of 0).", "quantifier": "all pass/fail behaviours of the tested digest", "why_tests_cant": "arbitrary, non-monotone pass functions", "anchors": ["src/util/mod.rs:opt_accuracy_parameter"]}
{"id": "C60", "title": "NaN is rejected, not silently mis-ordered", "statement": "Any compaction or sorted query of an RCSketch, RCSketch2 or LinearDigest, and any insertion into a TDigest, involving a NaN together with another value panics instead of returning an arbitrarily ordered result.", "quantifier": "all states containing NaN", "why_tests_cant": "all positions of NaN", "anchors": ["src/rc_sketch/rc_sketch.rs:compact", "src/rc_sketch/rc_sketch.rs:sorted_weighted_values", "src/util/linear_digest.rs:est_value_at_quantile"]}
{"id": "C61", "title": "RCSketch mean squared rank error", "statement": "With fair coins, even k, default/fast compaction and N items within the declared input length, the mean squared error of the estimated rank of any x is at most 2*N^2/(k*buffer_size).", "quantifier": "all histories within input length, all x, all even k", "why_tests_cant": "expectation over all coin sequences", "anchors": ["src/rc_sketch/rc_sketch.rs:compact", "src/rc_sketch/rc_sketch.rs:interpolate_rank"]}
{"id": "C62", "title": "RCSketch rank error tail probability", "statement": "Under the same conditions the probability that the estimated rank of x is off by at least t is at most 2*N^2/(k*buffer_size*t^2).", "quantifier": "all histories within input length, all x, all t > 0", "why_tests_cant": "rare events over all coin sequences", "anchors": ["src/rc_sketch/rc_sketch.rs:compact", "src/rc_sketch/rc_sketch.rs:interpolate_rank"]}
{"id": "C63", "title": "RCSketch a-priori rank error", "statement": "For even k, whatever the coins and however many items are inserted (default/fast compaction), the estimated rank is off by at most N*(log2(N/buffer_size)+1)/k.", "quantifier": "all histories, all coins, all x, all even k", "why_tests_cant": "worst case over coins and inputs", "anchors": ["src/rc_sketch/rc_sketch.rs:compact", "src/rc_sketch/rc_sketch.rs:interpolate_rank"]}
{"id": "C64", "title": "RCSketch2 conserves total weight", "statement": "The total weight of the stored items (weight 2^level) equals the number of items seen, hence est_quantile_at_value never exceeds 1.", "quantifier": "all k, all histories, all coin flips", "why_tests_cant": "depends on the parity of every compaction", "anchors": ["src/rc_sketch/rc_sketch2.rs:compact_buffer", "src/rc_sketch/rc_sketch2.rs:est_quantile_at_value"]}
{"id": "C65", "title": "RCSketch2 add_buffer is the same as adding one item at a time", "statement": "add_buffer(items) after any history has exactly the same distribution over resulting sketches as calling add for each item in order.", "quantifier": "all reachable sketches, all item slices", "why_tests_cant": "two code paths must agree for every state", "anchors": ["src/rc_sketch/rc_sketch2.rs:add", "src/rc_sketch/rc_sketch2.rs:add_buffer", "src/rc_sketch/rc_sketch2.rs:insert_batch"]}
{"id": "C66", "title": "RCSketch2 rank variance is bounded by its compactions", "statement": "With fair coins, section sizes that keep insertions from panicking (k>=4 in exact arithmetic, 4<=k<2^24 in the f32 arithmetic of the code), default/fast compaction and fewer than 2^32 non-NaN items the mean squared error of the rank of any x in the stored weighted items (the answer of interpolate_rank, for section sizes of at least 2) is at most the expected sum over levels h of 4^h times the number of compactions of level h.", "quantifier": "all histories, all x; expectation over coins", "why_tests_cant": "expectation over exponentially many coin sequences", "anchors": ["src/rc_sketch/rc_sketch2.rs:compact_buffer", "src/rc_sketch/rc_sketch2.rs:interpolate_rank"]}
{"id": "C67", "title": "find_closest_centroids returns exactly the nearest centroids", "statement": "The range returned for a target contains exactly the centroids at minimal distance from it.", "quantifier": "all sorted digests, all targets", "why_tests_cant": "ties and targets between two centroids", "anchors": ["src/t_digest/t_digest.rs:find_closest_centroids"]}
{"id": "C68", "title": "Adding centroids conserves weight and mass", "statement": "The sum of two centroids of positive weight has the sum of the weights, the sum of the masses, and a mean between the two; addition is commutative.", "quantifier": "all pairs of centroids, exact arithmetic", "why_tests_cant": "real-valued identity", "anchors": ["src/t_digest/centroid.rs:add"]}
{"id": "C69", "title": "Clustering only merges within the size limit", "statement": "When add_cluster or add_cluster_tree (scale function k0, compression factor d) merges a cluster into an existing centroid, the merged weight w satisfies w*d < 2*(n+w), n being the weight in the digest before that cluster; otherwise the cluster becomes a centroid of its own.", "quantifier": "all digests, all clusters, all d > 0; exact arithmetic", "why_tests_cant": "needs clusters of extreme weight or mean", "anchors": ["src/t_digest/t_digest.rs:add_cluster", "src/t_digest/t_digest.rs:add_cluster_tree", "src/t_digest/t_digest.rs:k_size"]}
{"id": "C70", "title": "ParTDigest stays within the data", "statement": "After any history followed by a flush the centroids are sorted, have weight at least 1, lie between the recorded min and max, and these lie between the smallest and largest item; quantile estimates lie in [0,1], are 0 below all items and 1 above all.", "quantifier": "all histories, all thread/capacity parameters >= 1, all values; exact arithmetic", "why_tests_cant": "the limits are overwritten at each flush", "anchors": ["src/t_digest/par_t_digest.rs:flush", "src/t_digest/par_t_digest.rs:est_quantile_at_value"]}
{"id": "C71", "title": "ParTDigest buffer is bounded", "statement": "After every call the pending buffer holds at most capacity items.", "quantifier": "all histories", "why_tests_cant": "all histories", "anchors": ["src/t_digest/par_t_digest.rs:add", "src/t_digest/par_t_digest.rs:add_buffer"]}
{"id": "C72", "title": "BufferedDigest delivers batches in order", "statement": "The wrapped digest receives exactly the supplied items, in order, cut into batches; between queries every batch it receives has more than capacity and at most 2*capacity items.", "quantifier": "all histories, all capacities, all wrapped digests", "why_tests_cant": "all histories", "anchors": ["src/buffered_digest.rs:add", "src/buffered_digest.rs:add_buffer"]}
{"id": "C73", "title": "MultiDigest averaging divides the variance", "statement": "If the answers of m independent members to a query after a history are unbiased for mu with mean squared error at most v, the answer of the MultiDigest is unbiased for mu with mean squared error at most v/m.", "quantifier": "all randomised member digests, all histories", "why_tests_cant": "expectation over coins, generic in the members", "anchors": ["src/multi_digest.rs:est_quantile_at_value", "src/multi_digest.rs:est_value_at_quantile"]}
{"id": "C74", "title": "MultiDigest of RCSketches", "statement": "m RCSketches new(n, k), k even, in a MultiDigest: after any insertions of 1 to n items est_quantile_at_value(x) is unbiased for the fraction of items at most x, with mean squared error at most 2/(k*buffer_size*m).", "quantifier": "all m, n, even k, all insertion histories, all x", "why_tests_cant": "expectation over exponentially many coin sequences", "anchors": ["src/multi_digest.rs", "src/rc_sketch/rc_sketch.rs"]}
{"id": "C75", "title": "SymDigest of exact digests is exact", "statement": "A SymDigest of two LinearDigests answers est_quantile_at_value(v) with the mid-rank fraction unless v occurs exactly once, and then with a number between the fraction of items below v and that of items not above v.", "quantifier": "all histories, all v; exact arithmetic", "why_tests_cant": "all data", "anchors": ["src/sym_digest.rs:est_quantile_at_value"]}
{"id": "C76", "title": "ParallelDigest of exact digests", "statement": "When no sub-digest is empty, a ParallelDigest of LinearDigests estimates the quantile of v between the fraction of items below v and that fraction plus half of the items equal to v, whatever the history and the distribution over the sub-digests; none is empty after a slice whose length is a positive multiple of the number of sub-digests.", "quantifier": "all histories, all v, any number of sub-digests; exact arithmetic", "why_tests_cant": "all ways of distributing the data", "anchors": ["src/parallel_digest.rs:est_quantile_at_value", "src/parallel_digest.rs:add_buffer"]}
{"id": "C77", "title": "TDigest size with k2 and k2_asym", "statement": "After any history of items, a digest using k2 (compression factor d at most 10^6) or k2_asym (d at most 250000) has at most d + 3 centroids, whatever the number of items.", "quantifier": "all histories, all d in range", "why_tests_cant": "independent of input size; logarithmic formulas", "anchors": ["src/t_digest/t_digest.rs:add_centroid_buffer", "src/t_digest/scale_functions.rs:k2", "src/t_digest/scale_functions.rs:k2_asym"]}
{"id": "C78", "title": "TDigest size with k3", "statement": "After any history of items, a digest using k3 with compression factor d at most 10^5 has at most d + 3 centroids, whatever the number of items.", "quantifier": "all histories, all d in range", "why_tests_cant": "independent of input size", "anchors": ["src/t_digest/t_digest.rs:add_centroid_buffer", "src/t_digest/scale_functions.rs:k3"]}
{"id": "C79", "title": "TDigest size with k1", "statement": "After any history of items, the number of centroids of a digest using k1 is bounded in terms of the compression factor alone.", "quantifier": "all histories, all compression factors >= 2", "why_tests_cant": "independent of input size", "anchors": ["src/t_digest/t_digest.rs:add_centroid_buffer", "src/t_digest/scale_functions.rs:k1", "src/t_digest/scale_functions.rs:inv_k1"]}
{"id": "C80", "title": "TDigest size with k2n", "statement": "With k2n and compression factor d, after any history with total weight W the digest has at most d/10*log10(W)^2 + 3 centroids, as long as d/10*log10(W)^2 is at most 10^6.", "quantifier": "all histories, all d", "why_tests_cant": "all input sizes", "anchors": ["src/t_digest/t_digest.rs:add_centroid_buffer", "src/t_digest/scale_functions.rs:k2n"]}
{"id": "C81", "title": "sample_digest_accuracy samples", "statement": "sample_digest_accuracy returns exactly test_count errors, each computed from the digest and the exact digest filled with the same generated data set; it does not panic unless a closure does; for an exact digest every error is error(x, x).", "quantifier": "all closures, all test counts", "why_tests_cant": "generic in the closures", "anchors": ["src/util/mod.rs:sample_digest_accuracy"]}
{"id": "C82", "title": "Deterministic data generators", "statement": "gen_asc_vec(n) and gen_asc_centroid_vec(n) produce 0..n-1 (nothing for negative n); gen_growing_blocks_vec(n) produces n values starting at 1 or 2, each equal to its predecessor or one more, whatever is drawn.", "quantifier": "all sizes, all draws; exact arithmetic", "why_tests_cant": "all sizes and random draws", "anchors": ["src/util/mod.rs:gen_asc_vec", "src/util/mod.rs:gen_growing_blocks_vec"]}
{"id": "C83", "title": "TDigest quantile error after one batch", "statement": "After one add_buffer call on a new digest, est_quantile_at_value(x) times n differs from the rank of x by at most one and a half times the heaviest centroid; with k0 and compression factor d by at most max(3/2, 3n/d).", "quantifier": "all batches, all x, all scale functions, all d > 0; exact arithmetic", "why_tests_cant": "every batch and every query point; the error is a worst case", "anchors": ["src/t_digest/t_digest.rs:add_buffer", "src/t_digest/t_digest.rs:est_quantile_at_value"]}
{"id": "C84", "title": "TDigest value error after one batch", "statement": "After one add_buffer call on a new digest, the rank of est_value_at_quantile(q) differs from q*n by at most one and a half times the heaviest centroid.", "quantifier": "all batches, all q in [0,1], all scale functions; exact arithmetic", "why_tests_cant": "every batch and every q; the error is a worst case", "anchors": ["src/t_digest/t_digest.rs:add_buffer", "src/t_digest/t_digest.rs:est_value_at_quantile"]}
{"id": "C85", "title": "TDigest accuracy does not depend on how the data is cut into batches", "statement": "The accuracy of a k0 digest after one batch (rank error at most max(3/2, 3n/d)) holds after any history of add and add_buffer calls.", "quantifier": "all histories, all x; exact arithmetic", "why_tests_cant": "adversarial insertion orders", "anchors": ["src/t_digest/t_digest.rs:add", "src/t_digest/t_digest.rs:add_buffer", "src/t_digest/t_digest.rs:est_quantile_at_value"]}
{"id": "C86", "title": "TDigest relative accuracy towards the ends", "statement": "After one batch of n items into a digest with k2, k3 or k2n the rank error of quantile and value queries is at most 3/2*max(1, r(r-1)*t), t the distance in items to the nearer end of the data and r a factor depending on the compression factor and log(n) only.", "quantifier": "all batches, all x and q", "why_tests_cant": "every batch; logarithmic scale functions", "anchors": ["src/t_digest/t_digest.rs:add_buffer", "src/t_digest/scale_functions.rs:k2", "src/t_digest/scale_functions.rs:k3", "src/t_digest/scale_functions.rs:k2n"]}
{"id": "C87", "title": "TDigest is safe in floating point", "statement": "With f64 arithmetic (every operation rounding), inserting up to 2^52 finite items of magnitude at most 2^970 in any way never panics; count() is exact, the centroid means are finite and stay within that magnitude, and min and max enclose every item.", "quantifier": "all histories, all scale functions, all sorting algorithms; any monotone rounding with exact small integers and enough range", "why_tests_cant": "rounding errors over arbitrarily long histories", "anchors": ["src/t_digest/t_digest.rs:add_centroid_buffer", "src/t_digest/t_digest.rs:count"]}
{"id": "C88", "title": "TDigest queries are safe in floating point", "statement": "After such a history of at least one item, in the same arithmetic, est_quantile_at_value(v) is a number in [0,1] for every v but NaN, 0 below min and 1 above max; est_value_at_quantile(q) returns for every q but NaN (for which it panics), with min for 0 and max for 1.", "quantifier": "all histories, all scale functions, all v and q including infinities; any monotone rounding with exact small integers and enough range", "why_tests_cant": "rounding may push an intermediate result over a case boundary", "anchors": ["src/t_digest/t_digest.rs:est_quantile_at_value", "src/t_digest/t_digest.rs:est_value_at_quantile"]}
{"id": "C89", "title": "ParallelDigest answers do not depend on the thread schedule", "statement": "However rayon cuts the list of sub-digests and combines the partial sums, est_quantile_at_value and est_value_at_quantile give the same answers in exact arithmetic; with f64 arithmetic, sub-digests that answer in [0,1] and at most 2^52 items, every schedule answers in [0,1] and within (3m+2)*2^-52 of the count-weighted mean of the m sub-digest estimates.", "quantifier": "all schedules, all sub-digests, all queries; any monotone rounding with exact small integers and a relative error bound", "why_tests_cant": "schedules cannot be enumerated or forced by a test", "anchors": ["src/parallel_digest.rs:est_quantile_at_value", "src/parallel_digest.rs:est_value_at_quantile"]}
{"id": "C90", "title": "ParallelDigest value search in floating point", "statement": "With f64 arithmetic, sub-digests whose answers are numbers, and items of magnitude at most 2^1021 that are all equal or not all within 2^-1045 of 0, est_value_at_quantile ends within 21 rounds for every schedule, with a value between the smallest and the largest item and in a bracket of relative width at most 1.01e-6 where the estimated quantile crosses the target.", "quantifier": "all data in range, all targets, all schedules, all sub-digests", "why_tests_cant": "rounding in the bisection; termination of a numeric loop", "anchors": ["src/parallel_digest.rs:est_value_at_quantile"]}
{"id": "C91", "title": "MultiDigest averages in floating point", "statement": "With f64 arithmetic, m members whose answers are surely numbers of magnitude at most M, m <= 2^52 and m*M at most 2^1021: both estimates are within 2^-52*(m+1)*M (plus an absolute error of at most 2^-1073) of the mean of the members' answers; quantile estimates stay in [0,1] if those of the members do.", "quantifier": "all member digests, all queries; any monotone rounding with a relative error bound", "why_tests_cant": "rounding errors over any number of members", "anchors": ["src/multi_digest.rs:est_quantile_at_value", "src/multi_digest.rs:est_value_at_quantile"]}
{"id": "C92", "title": "RCSketch accuracy is relative to the rank", "statement": "With fair coins, even k, default compaction, no fast insertions and N items within the declared input length, the mean squared error of interpolate_rank(x) is at most 2*(R/k)^2 (and at most 4*(log2(N/buffer_size)+1)*R^2/(k*buffer_size)), R the number of items at most x, whatever N; the chance of an error above e*R is at most 2/(k*e)^2. With fast insertions mixed in, the mean squared error is at most 2*R^2/k. A MultiDigest of m such sketches divides the mean squared error by m.", "quantifier": "all histories within input length, all x, all even k, all e > 0", "why_tests_cant": "expectation over exponentially many coin sequences; the guarantee is for low ranks in arbitrarily long streams", "anchors": ["src/rc_sketch/rc_sketch.rs:get_compact_index", "src/rc_sketch/rc_sketch.rs:compact", "src/rc_sketch/rc_sketch.rs:interpolate_rank"]}
{"id": "C93", "title": "owned_size counts the bytes occupied and owned", "statement": "owned_size() of every digest is the number of bytes it occupies and owns: its own size plus, for each vector in it, capacity times the element size and what the elements own.", "quantifier": "all states of all digest types, all vector capacities, all element sizes, any nesting of the wrappers", "why_tests_cant": "no test calls owned_size; capacities are chosen by the allocator", "anchors": ["src/traits.rs:OwnedSize", "src/t_digest/t_digest.rs:owned_size", "src/rc_sketch/rc_sketch.rs:owned_size", "src/buffered_digest.rs:owned_size", "src/parallel_digest.rs:owned_size", "src/sym_digest.rs:owned_size"]}
{"id": "C94", "title": "RCSketch value queries are accurate in rank", "statement": "Even k, default compaction, N items within the declared input length, q in [0,1]: whatever the coins at most q*N + E items lie below est_value_at_quantile(q) and at least q*N - E are not above it, E = N*(log2(N/buffer_size)+1)/k; with E = e*N this fails with probability at most 4/(k*buffer_size*e^2); without fast insertions and with E = e*q*N, e <= 1, with probability at most 10/(k*e)^2 (q*N as computed).", "quantifier": "all histories within input length, all q in [0,1], all even k, all e; any arithmetic that counts up to N exactly", "why_tests_cant": "the answer is random and the guarantee is a probability over exponentially many coin sequences", "anchors": ["src/rc_sketch/rc_sketch.rs:est_value_at_quantile", "src/rc_sketch/rc_sketch.rs:compact"]}
{"id": "C95", "title": "SymDigest of RCSketches is accurate at both ends", "statement": "A SymDigest of two RCSketches new(n, k), k even, with N items, 1 <= N <= n: est_quantile_at_value(x) is surely within N*(log2(N/buffer_size)+1)/k ranks; where the lower (upper) side is smaller by more than twice that, its mean squared error is at most 2*(p/k)^2, p the fraction of items <= x (>= x). est_value_at_quantile(q), q != 1/2, is off by more than e*min(q,1-q)*N ranks with probability at most 10/(k*e)^2, 0 < e <= 1.", "quantifier": "all insertion histories through the trait, all x, all q, all even k; exact arithmetic", "why_tests_cant": "joint distribution of two randomised sketches; the choice between them depends on both", "anchors": ["src/sym_digest.rs:est_quantile_at_value", "src/sym_digest.rs:est_value_at_quantile", "src/rc_sketch/rc_sketch.rs:est_value_at_quantile"]}
{"id": "C96", "title": "ParTDigest is safe in floating point", "statement": "With f64 arithmetic (every operation rounding), supplying up to 2^52 finite items of magnitude at most 2^970 to a ParTDigest in any mix of insertions and queries never panics, for any positive number of threads and any capacity; count() is exact; after the first item est_quantile_at_value(v) is a number in [0,1] and est_value_at_quantile(q) returns, for every v and q but NaN; a flush keeps the exact weight, means and limits within that magnitude, and limits that enclose the flushed items and the earlier centroids.", "quantifier": "all histories of up to 2^52 items, all thread counts, capacities and scale functions", "why_tests_cant": "rounding errors accumulate over arbitrarily long histories; the partition into chunks", "anchors": ["src/t_digest/par_t_digest.rs:flush", "src/t_digest/par_t_digest.rs:add", "src/t_digest/par_t_digest.rs:add_buffer", "src/t_digest/par_t_digest.rs:est_quantile_at_value", "src/t_digest/par_t_digest.rs:est_value_at_quantile"]}
{"id": "C97", "title": "SymDigest in floating point", "statement": "With f64 arithmetic: if the sides answer a and b in [0,1], est_quantile_at_value returns a number in [0,1] that lies between a and the rounded 1-b, and is a, the rounded 1-b, or one half; est_value_at_quantile(q) is the low side's answer below one half and the negated high side's answer above it; a SymDigest of TDigests never panics, counts exactly and answers with probabilities for up to 2^52 items of magnitude at most 2^970; for RCSketches of even k the estimate is within the a-priori error plus 2^-51, and value queries have the accuracy of two-sided sketches with the target rank rounded.", "quantifier": "all sub-digests, all values and quantiles; all insertion histories for the concrete sub-digests", "why_tests_cant": "rounding of 1-b and of the average could make the choice wrong for some pair of answers", "anchors": ["src/sym_digest.rs:est_quantile_at_value", "src/sym_digest.rs:est_value_at_quantile"]}
{"id": "C98", "title": "RCSketch2 is accurate", "statement": "With k at least 264 (below 2^24) and default/fast compaction, after any insertions of N < 2^32 non-NaN items the estimated rank of every x is surely within 180*N/k of the true rank; its mean squared error is at most 3*(N/k)^2, and the chance of an error of e*N or more at most 3/(k*e)^2. In terms of the smallest section size w and the number M of levels: N*((1+1/w)^M - 1) surely.", "quantifier": "all histories, all x; all coins, resp. expectation over coins", "why_tests_cant": "worst case and expectation over all coin sequences and compaction cascades", "anchors": ["src/rc_sketch/rc_sketch2.rs:compress", "src/rc_sketch/rc_sketch2.rs:compact_buffer", "src/rc_sketch/rc_sketch2.rs:interpolate_rank"]}
{"id": "C99", "title": "RCSketch2 value queries are accurate in rank", "statement": "With default/fast compaction, q in [0,1] and N < 2^32 items: whatever the coins at most q*N + E items lie below est_value_at_quantile(q) and at least q*N - 2E are not above it, E = N*((1+1/w)^M - 1), w the smallest section size, M the number of levels; with E = e*N this fails with probability at most 27/(k*e)^2 for k at least 264 (below 2^24).", "quantifier": "all histories, all q; all coins, resp. probability over coins", "why_tests_cant": "worst case and probability over all coin sequences", "anchors": ["src/rc_sketch/rc_sketch2.rs:est_value_at_quantile", "src/rc_sketch/rc_sketch2.rs:compress", "src/rc_sketch/rc_sketch2.rs:compact_buffer"]}
{"id": "C100", "title": "RCSketch2 accuracy is relative to the rank", "statement": "With fair coins, k at least 264 (below 2^24), default/fast compaction and N < 2^32 non-NaN items, the mean squared error of interpolate_rank(x) is at most 4*R^2/k, R the number of items at most x, so the chance of an error of e*R or more is at most 4/(k*e^2); for q in [0,1] and 0 < e <= 1, except with probability at most 48/(k*e^2), at most (1+e)*q*N items lie below est_value_at_quantile(q) and at least (1-e)*q*N are not above it.", "quantifier": "all histories, all x, all q; expectation and probability over coins", "why_tests_cant": "expectation over exponentially many coin sequences; all histories", "anchors": ["src/rc_sketch/rc_sketch2.rs:compact_buffer", "src/rc_sketch/rc_sketch2.rs:get_compact_index", "src/rc_sketch/rc_sketch2.rs:get_compact_index_fast", "src/rc_sketch/rc_sketch2.rs:interpolate_rank", "src/rc_sketch/rc_sketch2.rs:est_value_at_quantile"]}
{"id": "C101", "title": "add_cluster merges exactly by the k-size rule", "statement": "weight_left is the total weight of the centroids with a mean strictly below the target's. add_cluster, with any scale function k and room under the growth limit, merges a cluster into a centroid only if k grows by less than 1 over the quantile interval of the merged centroid, that interval starting at the weight strictly below the merged mean divided by the total weight plus the merged weight; with strictly increasing means the centroid has the least mean*weight among the nearest ones the rule allows, and the cluster becomes a centroid of its own, at its sorted place, only if the rule allows no nearest centroid.", "quantifier": "all digests, all clusters, all scale functions; exact arithmetic (weight_left also in floating point)", "why_tests_cant": "the decision depends on all centroids and on an arbitrary scale function", "anchors": ["src/t_digest/t_digest.rs:add_cluster", "src/t_digest/t_digest.rs:weight_left", "src/t_digest/t_digest.rs:k_size", "src/t_digest/t_digest.rs:k_size_from_weights", "src/t_digest/t_digest.rs:find_closest_centroids"]}
{"id": "C102", "title": "ParallelDigest adds up independent estimators", "statement": "A ParallelDigest of randomised digests, after insertions of non-empty slices of non-NaN items: if sub-digest i, after the share of the items it gets, counts n_i items and answers est_quantile_at_value(x) without bias for m_i with mean squared error at most v_i, then no call panics, the answer is unbiased for sum(n_i*m_i)/N with mean squared error at most sum(n_i^2*v_i)/N^2, and count() is N = sum(n_i). With RCSketches (even k) or RCSketch2s (k from 264 on) that each get an item the answer is therefore unbiased for R/N, R the number of items at most x, with mean squared error at most 2*(R/(k*N))^2 or 4*R^2/(k*N^2), the same as for one sketch holding all items.", "quantifier": "all sub-digests, all insertion histories, all x; expectation over coins; exact arithmetic", "why_tests_cant": "joint distribution of several randomised digests fed by different parts of the data", "anchors": ["src/parallel_digest.rs:add_buffer", "src/parallel_digest.rs:est_quantile_at_value", "src/parallel_digest.rs:count", "src/rc_sketch/rc_sketch2.rs:est_quantile_at_value"]}
{"id": "C103", "title": "MultiDigest of independent estimators, nested wrappers", "statement": "If after a history every one of the m members of a MultiDigest counts n items and answers est_quantile_at_value(x) without bias for p with mean squared error at most v, then the history and the query never panic, the MultiDigest counts m*n and answers without bias for p with mean squared error at most v/m. This composes: m RCSketch2s in a MultiDigest have mean squared error at most 4*R^2/(k*N^2*m), and a ParallelDigest of MultiDigests of j RCSketches each has at most 2*(R/(k*N))^2/j while counting each item j times.", "quantifier": "all members, all histories, all x; expectation over coins; exact arithmetic", "why_tests_cant": "joint distribution of several randomised digests; nesting of wrappers", "anchors": ["src/multi_digest.rs:est_quantile_at_value", "src/multi_digest.rs:count", "src/parallel_digest.rs:est_quantile_at_value"]}
{"id": "C104", "title": "add_cluster and add_cluster_tree are safe in floating point", "statement": "With f64 arithmetic (every operation rounding), supplying clusters of integer weight, at most 2^52 in total, and of means of magnitude at most 2^970 in any mix of add, add_buffer, add_centroid_buffer and add_cluster (growth_limit times compression factor between 0 and 2^52) never panics; total_weight() is exact, every centroid has an integer weight and a mean within that magnitude, min and max enclose everything supplied; after the first item est_quantile_at_value(v) is a number in [0,1], est_value_at_quantile(q) returns, for every v and q but NaN, and the extreme quantiles are min and max. The same holds whenever a history with add_cluster_tree returns, which leaves strictly increasing means.", "quantifier": "all histories, all scale functions, all growth limits", "why_tests_cant": "rounding errors accumulate over arbitrarily long histories; merges depend on arbitrary scale functions", "anchors": ["src/t_digest/t_digest.rs:add_cluster", "src/t_digest/t_digest.rs:add_cluster_tree", "src/t_digest/t_digest.rs:update_limits", "src/t_digest/t_digest.rs:est_quantile_at_value", "src/t_digest/t_digest.rs:est_value_at_quantile"]}
{"id": "C105", "title": "KeyedSumTree in floating point", "statement": "With f64 arithmetic (every operation rounding): after inserting fresh keys with integer weights, at most 2^52 in total, and deleting only the currently largest key, less_than_sum(key) is exactly the sum of the weights of the stored keys strictly below key (None when empty). With keys and target of magnitude at most 2^1022, closest_keys on a non-empty reachable tree is non-empty, returns stored pairs only, and returns every key at exactly minimal distance. Beyond these bounds both fail: a weight of 1 next to 2^53 is lost, an overflowing distance makes closest_keys empty.", "quantifier": "all such operation sequences, all keys, all targets; any monotone rounding that represents the counts (and is symmetric, for closest_keys)", "why_tests_cant": "all tree shapes; rounding in the incremental sums", "anchors": ["src/util/keyed_sum_tree.rs:insert", "src/util/keyed_sum_tree.rs:delete", "src/util/keyed_sum_tree.rs:less_than_sum", "src/util/keyed_sum_tree.rs:closest_keys"]}
{"id": "C106", "title": "ParTDigest with explicit flushes", "statement": "With explicit flush() calls anywhere in a history of insertions and queries of a ParTDigest nothing panics, count() is the number of items supplied, total_weight() is that number less the pending items (at most the buffer capacity), and right after a flush total_weight() is the number of items supplied; in exact arithmetic, and in f64 for up to 2^52 items of magnitude at most 2^970.", "quantifier": "all call histories, all positive numbers of threads, all capacities, all scale functions", "why_tests_cant": "all interleavings of flushes, queries and insertions of any size", "anchors": ["src/t_digest/par_t_digest.rs:flush", "src/t_digest/par_t_digest.rs:total_weight", "src/t_digest/par_t_digest.rs:count"]}
{"id": "C107", "title": "Buffering an RCSketch or RCSketch2 changes nothing", "statement": "The answers of an RCSketch (within its declared input length) or RCSketch2 depend only on the items supplied before each query and on the coins, not on how the items are cut into add and add_buffer calls. A BufferedDigest of any non-zero capacity around one gives, coin for coin, the same answers, and after a flush holds the same sketch, as using the sketch directly.", "quantifier": "all histories, all capacities, all coins; RCSketch: k >= 1, input length below 2^32, non-NaN items; RCSketch2: 4 <= k < 2^24", "why_tests_cant": "all histories, capacities and coin sequences; equality of distributions, not of sample answers", "anchors": ["src/buffered_digest.rs:flush", "src/buffered_digest.rs:add_buffer", "src/rc_sketch/rc_sketch.rs:add_buffer", "src/rc_sketch/rc_sketch2.rs:add_buffer"]}
{"id": "C108", "title": "TDigest accuracy after any number of batches", "statement": "After any history of B calls of add, add_buffer and add_centroid_buffer on a new digest, with any scale function, est_quantile_at_value(x) times the total weight is within max(1, M/2) + B*M of the weight supplied below x and up to x, M the weight of the heaviest centroid in the end; with k0 and compression factor d, for items in B batches, within max(1, n/d) + (2/d)*(n_1+...+n_B) ranks, n_j the number of items after batch j, hence within max(1, n/d) + 2*B*n/d. The same bounds hold for est_value_at_quantile(q), q in [0,1] and not right of the middle of the last centroid.", "quantifier": "all histories, all x and q, all scale functions, all d > 0; exact arithmetic", "why_tests_cant": "every cut of every data set into batches in every order; the error is a worst case", "anchors": ["src/t_digest/t_digest.rs:add_centroid_buffer", "src/t_digest/t_digest.rs:est_quantile_at_value", "src/t_digest/t_digest.rs:est_value_at_quantile"]}
{"id": "C109", "title": "ParTDigest accuracy with k0", "statement": "A ParTDigest with scale function k0 and compression factor d, after any history of insertions, queries and flushes that supplied n items, c of the calls being queries or flushes: est_quantile_at_value(x) times n is within max(1, n/d) + (2n/d)*(2 + c + n/(capacity+1)) of the rank of x, for any positive number of threads; the same for est_value_at_quantile(q), q in [0,1] and not right of the middle of the last centroid.", "quantifier": "all call histories, all thread counts and capacities, all x and q, all d > 0; exact arithmetic", "why_tests_cant": "all interleavings of insertions, queries and flushes; the error is a worst case over data and cuts into chunks", "anchors": ["src/t_digest/par_t_digest.rs:flush", "src/t_digest/par_t_digest.rs:est_quantile_at_value", "src/t_digest/par_t_digest.rs:est_value_at_quantile"]}
{"id": "C110", "title": "Calls a BufferedDigest makes, and the accuracy of a buffered TDigest", "statement": "A BufferedDigest of capacity c >= 1, whatever its inner digest, inserts into it at most q + n/(c+1) times in a history with q queries that delivers n items, only by add_buffer. Hence a TDigest with k0 and compression factor d in a BufferedDigest answers est_quantile_at_value(x), after any history of q queries and insertions of n items, within max(1, n/d) + (2n/d)*(1 + q + n/(c+1)) ranks; the same for est_value_at_quantile(p), p in [0,1] and not right of the middle of the last centroid. Used directly with I insertion calls the bound is max(1, n/d) + 2*n*I/d.", "quantifier": "all histories, all capacities of at least 1, all x and p, all d > 0; the number of calls for every inner digest; exact arithmetic", "why_tests_cant": "amortised bound over all histories and inner digests; worst case error", "anchors": ["src/buffered_digest.rs:flush", "src/buffered_digest.rs:add_buffer", "src/buffered_digest.rs:est_quantile_at_value", "src/t_digest/t_digest.rs:add_buffer"]}
{"id": "C111", "title": "When add_cluster_tree panics", "statement": "On a digest of finite centroids, add_cluster_tree of finite clusters returns, as add_cluster does. (False: with k0 and compression factor d, if all means are at least M and M*d is no less than twice the total weight, and the growth limit leaves room, it returns exactly when all means, old and new, are different, then keeping every cluster as it is, and otherwise panics; so adding 100 twice panics. With distinct means closer than 1/1000 a merge may land on another key and panic, depending on the shuffle. It does return for one cluster with a mean that is not yet present when the means of the digest are at least 1/1000 apart, for all scale functions.)", "quantifier": "all histories, all clusters, all shuffles; the exact criterion for k0; exact arithmetic", "why_tests_cant": "a panic depends on all centroids, the tree shape and the shuffle", "anchors": ["src/t_digest/t_digest.rs:add_cluster_tree", "src/util/keyed_sum_tree.rs:insert", "src/util/keyed_sum_tree.rs:closest_keys"]}
{"id": "C112", "title": "Sketches only compare items", "statement": "Let f preserve the order of all items and of the query value (NaN going to NaN). Replacing every item by its image under f leaves RCSketch's and RCSketch2's interpolate_rank(f(x)) and est_quantile_at_value(f(x)) equal to the former answers at x, coin for coin and panic for panic, and maps the answer of est_value_at_quantile by f; likewise for LinearDigest. This holds for every mix of add, add_buffer, add_buffer_fast and add_buffer_custom with the default compaction, and fails with average_neighbour compaction.", "quantifier": "all order-preserving maps, all histories, all sizes, all coins, all queries, all section sizes", "why_tests_cant": "quantifies over pairs of streams, all monotone maps and all coin sequences", "anchors": ["src/rc_sketch/rc_sketch.rs:interpolate_rank", "src/rc_sketch/rc_sketch.rs:est_value_at_quantile", "src/rc_sketch/rc_sketch2.rs:interpolate_rank", "src/util/linear_digest.rs:est_quantile_at_value"]}
{"id": "C113", "title": "TDigest does not depend on unit and origin", "statement": "Inserting a*x+b for every x (a > 0, weights unchanged) by add, add_buffer and add_centroid_buffer gives, coin for coin, the same TDigest with all means and both limits transformed; est_quantile_at_value(a*x+b) is then what est_quantile_at_value(x) was, and est_value_at_quantile answers are transformed too, for shifts (a = 1) always, for other a unless the target lies in the right half of the last centroid and not in its last unit of weight (there the interpolation ignores the distance to the maximum). With add_cluster the quantile answers are invariant under scaling but not under shifts; add_cluster_tree is not invariant under scaling (adding 100 twice panics, adding 1/100 twice does not).", "quantifier": "all a > 0 and b, all histories of finite items within range, all scale functions and compression factors, all queries, all tie-breaking of the sort; value queries for weights of at least 1; exact arithmetic", "why_tests_cant": "relates two executions for all data, all maps and all sort orders", "anchors": ["src/t_digest/t_digest.rs:add_centroid_buffer", "src/t_digest/t_digest.rs:est_quantile_at_value", "src/t_digest/t_digest.rs:est_value_at_quantile", "src/t_digest/t_digest.rs:add_cluster"]}
{"id": "C114", "title": "TDigest and infinite items", "statement": "Items that are finite or +inf (or: finite or -inf) are always accepted by add, add_buffer and add_centroid_buffer: no panic, total weight conserved, no NaN mean; after +inf the maximum and the last mean are +inf. With finite items and +inf every est_quantile_at_value of a finite value or +inf is a finite number. The mirrored statement is false: with -inf the quantile of a finite value can be NaN. With both signs a mean can become NaN and the next insertion panics. est_value_at_quantile can be NaN with +inf only, and a digest that has only seen +inf answers the largest finite number as its minimum.", "quantifier": "all histories of items with positive finite weight whose values are finite or +inf (finite or -inf), all scale functions and compression factors, all queries, all tie-breaking of the sort; exact arithmetic", "why_tests_cant": "infinite values pass through sums, products and quotients of every merge and query, in all orders", "anchors": ["src/t_digest/t_digest.rs:add_centroid_buffer", "src/t_digest/t_digest.rs:est_quantile_at_value", "src/t_digest/t_digest.rs:est_value_at_quantile"]}
{"id": "C115", "title": "Random data generators and weight zero", "statement": "gen_uniform_vec, gen_uniform_tan_vec, gen_uniform_exp_vec, gen_uniform_centroid_vec and gen_uniform_centroid_random_weight_vec return size values (none for a negative size); uniform values lie in 0..=1001 (in f64 below 1001, in f32 the excluded bound 1001 can occur), those of gen_uniform_tan_vec are the rounded tangents of the samples, exponential ones are at most -1, and a parameter lambda that is not positive panics. A TDigest takes unit-weight centroids and positive random weights without panic and its weight grows by their sum. A weight drawn as 0 is taken but poisons the digest: if the first batch has only zero weights all means are NaN and every further insertion panics; one zero weight among others can be enough, and a query may panic too.", "quantifier": "all samples in the range of the distribution, all sizes; TDigest: all scale functions, compression factors, histories, tie-breaking of the sort", "why_tests_cant": "the samples are random; weight zero and the rounding to 1001 are too rare to be drawn in tests", "anchors": ["src/util/mod.rs:gen_uniform_vec", "src/util/mod.rs:gen_uniform_exp_vec", "src/util/mod.rs:gen_uniform_centroid_random_weight_vec", "src/t_digest/t_digest.rs:add_centroid_buffer"]}
{"id": "C116", "title": "Order of items between compactions and within a batch is irrelevant", "statement": "RCSketch and RCSketch2: as long as the items supplied do not fill the first buffer (for RCSketch2: the sketch), supplying them in another order, by other calls or in other batches makes no difference to count() or to any later answer, whatever is inserted afterwards; in particular the first 2k-1 items of RCSketch::new(n, k) and the first 6k-1 items of RCSketch2::new(k) may come in any order. TDigest: permuting the items within each add_buffer / add_centroid_buffer call leaves the set of possible results and answers unchanged, in floating point too, and the first batch of plain items has exactly one result. Across compactions (sketches) and across batches (TDigest) the order does matter.", "quantifier": "all sizes n and k, all section sizes, all histories before and after, all permutations and batchings, all random bits and tie orders, all items including NaN and infinities", "why_tests_cant": "Tests insert in one order; they cannot show that no permutation of a batch followed by any continuation gives another answer.", "anchors": ["src/rc_sketch/rc_sketch.rs:insert_at_rc_batch", "src/rc_sketch/rc_sketch.rs:compact", "src/rc_sketch/rc_sketch2.rs:insert_batch", "src/rc_sketch/rc_sketch2.rs:compact_buffer", "src/t_digest/t_digest.rs:add_centroid_buffer"]}
{"id": "C117", "title": "Size and resolution of a TDigest in floating point (k0)", "statement": "TDigest::<f64>::new(&k0, &inv_k0, D) with 1 <= D <= 10^7 holds at most D + 1 centroids after any history of at most 2^52 items of magnitude up to 2^970, however they are batched, and every centroid has weight 1 or at most n(2/D + 40/2^53); for f32 the same with D <= 900, 2^23 items of magnitude up to 2^103 and 40/2^24. So rounding costs at most a vanishing part of the resolution proved for exact arithmetic in C77/C78, but it can change the number of centroids: 0, 1, ..., 54 with factor 22 give 12 centroids in f64, 11 in exact arithmetic.", "quantifier": "all factors in the range, all histories of insertion calls, all items in the range, all tie orders; any arithmetic with monotone rounding, relative error u and exact small counts", "why_tests_cant": "Whether the rounded inv_k0(k0(q) + 1) falls just below or just above a cumulative weight depends on the last bit at every cut; a test sees a few sizes and batchings, not whether a long series of such errors can add up to more centroids or heavier ones.", "anchors": ["src/t_digest/t_digest.rs:add_centroid_buffer", "src/t_digest/scale_functions.rs:k0", "src/t_digest/scale_functions.rs:inv_k0"]}
{"id": "C118", "title": "Rank accuracy of a TDigest in floating point (k0)", "statement": "TDigest::<f64>::new(&k0, &inv_k0, D) with 1 <= D <= 10^7, after p calls of add_buffer with together n <= 2^52 items of magnitude up to 2^e (-1022 <= e <= 970): with M = max(1, n(2/D + 40/2^53)), est_quantile_at_value(x) never panics and answers y such that y*n is, up to (p + 1)M + n/2^51, between the number of items below x - s and the number of items up to x + s, where s = p(M + 1)2^e/2^52. The same for f32 (D <= 900, n <= 2^23, -126 <= e <= 103) with 2^23 for 2^52. The shift s cannot be left out: 35 items 0.9 and one item 1, D = 6, and x the double after 0.9: 35 of 36 items are below x and the answer is below 0.1.", "quantifier": "all factors, exponents and histories of batches in the range, all items, all x, all tie orders; in the general form all scale functions and any arithmetic with monotone rounding, relative error u and absolute error eta", "why_tests_cant": "Means are rounded at every merge and the rounding errors of equal or near items change which side of x they are counted on; a test sees the few data sets it tries and cannot tell whether errors of many merges add up, nor bound the effect for all data.", "anchors": ["src/t_digest/t_digest.rs:add_centroid_buffer", "src/t_digest/t_digest.rs:est_quantile_at_value"]}
{"id": "C119", "title": "TDigest value and quantile queries are mutually consistent", "statement": "On a TDigest with at least two centroids, est_value_at_quantile(est_quantile_at_value(x)) never panics and lies within the data and in the same gap between neighbouring centroid means as x; it is x for the minimum, for x = the mean of a centroid (other than the last, and other than a first centroid of weight 1), and below the first mean (weight > 2). This holds for every x that is not strictly between the last mean and the maximum. There it is false: the answer is max - (max - x)/(max - last mean), a length divided by a length, so 0, 0.1, ..., 1.1 with factor 6 answers 0.2 for x = 0.965.", "quantifier": "all histories of insertion calls with weights 1 or >= 2, all scale functions, all x, all tie orders; exact arithmetic", "why_tests_cant": "The two queries use different interpolation formulas with several special cases for weight 1 and for the tails; a test of the round trip tries a few points of a few digests, the statement is about every point of every reachable digest.", "anchors": ["src/t_digest/t_digest.rs:est_quantile_at_value", "src/t_digest/t_digest.rs:est_value_at_quantile"]}
{"id": "C120", "title": "Accuracy of TDigest value queries in floating point (k0)", "statement": "TDigest::<f64>::new(&k0, &inv_k0, D) with 1 <= D <= 10^7, after p calls of add_buffer with together n <= 2^52 items of magnitude up to 2^e (-1022 <= e <= 970): with M = max(1, n(2/D + 40/2^53)), est_value_at_quantile(q) for q >= 0 with nq < n - M/2 - n/2^51 never panics and answers a finite v such that nq is, up to (p + 1)M + n/2^51, between the number of items below v - s and the number of items up to v + s, where s = (p(M + 1) + 12)2^e/2^52. The same for f32 (D <= 900, n <= 2^23, -126 <= e <= 103) with 2^23 for 2^52.", "quantifier": "all factors, exponents and histories of batches in the range, all items, all q outside the last tail, all tie orders; in the general form all scale functions and any arithmetic with monotone rounding, relative error u and absolute error eta", "why_tests_cant": "The target q*n, the means and the interpolation are all rounded, and a wrong side of one comparison selects another centroid; a test sees the few data sets and quantiles it tries and cannot bound the effect for all data.", "anchors": ["src/t_digest/t_digest.rs:add_centroid_buffer", "src/t_digest/t_digest.rs:est_value_at_quantile"]}
{"id": "C121", "title": "The buffer size of an RCSketch as computed in floating point", "statement": "RCSketch::<F>::new(n, k) computes its buffer size as 2 * k * ceil(log2(n / k)) in F. With any log2 that is monotone, exact for powers of two and above 1 at 3 the result is max(2kc, 2k) with c = ceil(log2(n/k)) or one less (F = f64, f32; 130k below 2^52 resp. 2^23), so the sketch is, apart from its input_length field, the sketch of exact arithmetic for some n' <= n with n < 2n' + 2k; its count is exact, buffers stay below the capacity and rank errors are bounded by the compactions. Insertions of up to n < 2^32 non-NaN items never panic, whichever of the two sizes results. If log2 has relative error at most 2^-50 (f64) the size is exactly the intended one for n/k <= 2^42; for f32 (2^-22) for n/k <= 2^16.", "quantifier": "all n, k in the stated ranges, all log2 functions with the stated properties, all insertion histories and items, all coins and tie orders", "why_tests_cant": "Whether the rounded logarithm lands on the right side of an integer depends on the platform's log2 next to powers of two; a one-section-short buffer shows only for particular n and k, and that it does not underflow the compaction index needs an argument over all counter values.", "anchors": ["src/rc_sketch/rc_sketch.rs:new", "src/rc_sketch/rc_sketch.rs:calc_buffer_size", "src/rc_sketch/rc_sketch.rs:get_compact_index"]}
{"id": "C122", "title": "Exactly how many items an RCSketch takes", "statement": "Let L = max(1, ceil(log2(n/k))) and cap = 2k(4^L - 1) for L <= 16, cap = k(2^33 - 34 + 2L) otherwise. An RCSketch created with new(n, k) accepts any history of insertions (add, add_buffer, add_buffer_fast mixed) of fewer than cap non-NaN items without panicking, also far beyond the declared length n. A history without fast insertions of cap or more items never returns, whatever the items, the split into calls, the coins and tie orders: the add that brings the total to cap fails with an arithmetic overflow. For n < k(2^33 - 34) the declared length is below cap; cap is at least 2k((n/k)^2 - 1) for n/k <= 2^16.", "quantifier": "all n, k >= 1, insertion histories, items, coins, tie orders, number formats", "why_tests_cant": "The failing counter value is reached after 4^L - 1 sections; for realistic n and k that is billions of items, and the exact threshold depends on the sum of trailing ones of all counters before.", "anchors": ["src/rc_sketch/rc_sketch.rs:get_compact_index", "src/rc_sketch/rc_sketch.rs:calc_buffer_size", "src/rc_sketch/rc_sketch.rs:add_buffer_custom", "src/rc_sketch/rc_sketch.rs:add"]}
{"id": "C123", "title": "Accuracy of a buffered TDigest in floating point under mixed use", "statement": "Take BufferedDigest::new(TDigest::new(&k0, &inv_k0, D), capacity) over f64 with 1 <= D <= 10^7 and capacity > 0, and any interleaving of add, add_buffer, est_quantile_at_value and est_value_at_quantile on it, with 1 <= n <= 2^52 items of magnitude at most 2^e (e between -1022 and 970), q queries and finite arguments. No call panics. With M = max(1, n (2/D + 40/2^53)) and P = 1 + q + n/(capacity + 1), the quantile then answered for x is, up to (P + 1) M + n/2^51 items, the rank of a value within P (M + 1) 2^e / 2^52 of x; the value answered for a quantile q0 with n q0 < n - M/2 - n/2^51 is, up to the same number of items, within (P (M + 1) + 12) 2^e / 2^52 of a value of rank n q0. The same holds over f32 with D <= 900, n <= 2^23, e between -126 and 103, and 2^24, 2^22, 2^23 in place of 2^53, 2^51, 2^52.", "quantifier": "all capacities > 0, all factors in the range, all histories of insertions and queries, all finite items of the stated size, all query arguments", "why_tests_cant": "A statement about every interleaving of insertions and queries, every buffer capacity and the accumulated rounding of every merge; a test sees a handful of histories and no bound.", "anchors": ["src/buffered_digest.rs:add", "src/buffered_digest.rs:add_buffer", "src/buffered_digest.rs:flush", "src/buffered_digest.rs:est_quantile_at_value", "src/buffered_digest.rs:est_value_at_quantile", "src/t_digest/t_digest.rs:add_buffer"]}
{"id": "C124", "title": "ParallelDigest's chunk length computed in f64 loses no item", "statement": "ParallelDigest::add_buffer cuts its slice into chunks of ((len as f64 / digests as f64).ceil() as usize).max(1) items, computed in f64. For every slice of fewer than 2^53 items and every number of digests from 1 to 2^53 this is the exact quotient rounded up, but at least 1, so there are never more chunks than digests and add_buffer hands every item to an inner digest (with no digests the slice is one chunk). From 2^53 + 1 items on this fails: with one inner digest, the digest receives only the first 2^53 of 2^53 + 1 items.", "quantifier": "all slice lengths below 2^53, all numbers of digests up to 2^53, all inner digests, all items", "why_tests_cant": "Whether a rounded quotient ever drops to the integer below cannot be seen from a few lengths: it is a number-theoretic statement about all pairs of lengths, and no test can allocate a slice near the limit.", "anchors": ["src/parallel_digest.rs:add_buffer"]}
{"id": "C125", "title": "Accuracy of a ParTDigest in floating point under mixed use", "statement": "Take ParTDigest::new(threads, capacity, || TDigest::new(&k0, &inv_k0, D)) over f64 with threads >= 1 and 1 <= D <= 10^7, and any interleaving of add, add_buffer, flush, est_quantile_at_value and est_value_at_quantile on it, with 1 <= n <= 2^52 items of magnitude at most 2^e (e between -1022 and 970), c queries and explicit flushes, and finite arguments. No call panics. With r = 2/D + 40/2^53, M = max(1, n r) and P = 1 + c + n/(capacity + 1), the quantile then answered for x is, up to n r (P + 1) + 2 M + n/2^51 items, the rank of a value within P (M + 1) 2^e / 2^51 of x; the value answered for a quantile q >= 0 with n q < n - M/2 - n/2^51 is, up to the same number of items, within (P (M + 1) + 6) 2^e / 2^51 of a value of rank n q. The same holds over f32 with D <= 900, n <= 2^23, e between -126 and 103, and 2^24, 2^22 in place of 2^53, 2^51. The number of threads does not enter the bound.", "quantifier": "all thread counts >= 1, all capacities, all factors in the range, all histories of insertions, flushes and queries, all finite items of the stated size, all query arguments, every order in which unstable sorts leave equal items", "why_tests_cant": "A statement about every interleaving, every split of the buffer into chunks and the accumulated rounding of two levels of merging; a test sees a handful of histories and no bound.", "anchors": ["src/t_digest/par_t_digest.rs:new", "src/t_digest/par_t_digest.rs:add", "src/t_digest/par_t_digest.rs:add_buffer", "src/t_digest/par_t_digest.rs:flush", "src/t_digest/par_t_digest.rs:est_quantile_at_value", "src/t_digest/par_t_digest.rs:est_value_at_quantile", "src/t_digest/t_digest.rs:add_centroid_buffer"]}
{"id": "C126", "title": "ParTDigest memory is bounded by the compression factor and the capacity", "statement": "Whatever the history of add, add_buffer, flush and queries on a ParTDigest with at least one thread, its digest keeps fewer than d + 1 centroids with k0, at most d + 3 with k2 (d <= 10^6), k2_asym (4d <= 10^6) and k3 (d <= 10^5), and at most capacity items are pending, in exact arithmetic; so the size depends neither on the number of items nor on the number of threads or flushes. Over f64 with k0 and 1 <= D <= 10^7 there are at most D + 1 centroids, each of weight 1 or at most n(2/D + 40/2^53), for up to 2^52 items of magnitude up to 2^970; over f32 the same with D <= 900, 2^23 items, 2^103 and 2^24.", "quantifier": "all call histories, all thread counts >= 1 and capacities, all factors in the range, all tie orders", "why_tests_cant": "A bound for every history and number of flushes; each flush merges many small digests into the inner one, and a test cannot exclude that some cut into chunks leaves more centroids.", "anchors": ["src/t_digest/par_t_digest.rs:flush", "src/t_digest/par_t_digest.rs:add", "src/t_digest/par_t_digest.rs:add_buffer", "src/t_digest/t_digest.rs:add_centroid_buffer"]}
{"id": "C127", "title": "A TDigest that has not merged anything is exact in floating point", "statement": "As long as a TDigest holds as many centroids as items (n at least 2, every item a finite number of the format), its floating point quantile estimates are bit for bit those of a LinearDigest of the same items, for every queried value, and the value at a quantile q is an item of the input, namely the one with floor(fl(n*q)) items before it in sorted order (the largest if there is none). A TDigest<f64> with k0 and compression factor D up to 10^7 (f32: up to 900) is in that situation after any insertions of fewer than D items, and then count() is n too.", "quantifier": "all monotone rounding arithmetics with room for the items (f64 and f32 proved to be such), all scale functions, all histories of add/add_buffer/centroid batches of weight 1, all values and all quantiles in [0,1]", "why_tests_cant": "Depends on every comparison, sum, division and subtraction of the merge and of both queries being exact or rounded the same way as in LinearDigest; a test compares a handful of values and tolerates a small difference.", "anchors": ["src/t_digest/t_digest.rs:est_quantile_at_value", "src/t_digest/t_digest.rs:est_value_at_quantile", "src/t_digest/t_digest.rs:add_centroid_buffer", "src/util/linear_digest.rs:est_quantile_at_value"]}
{"id": "C128", "title": "SymDigest of RCSketch2s is accurate at both ends", "statement": "A SymDigest of two RCSketch2s with parameter k (sections as the code computes them in f32, 264 <= k < 2^24, or exact ones, k >= 256), after any insertions of N < 2^32 items without NaN through the trait, answers est_quantile_at_value(x) with a mean squared error over the coins of at most 4 p^2/k, where p is the fraction of items <= x when x is below the middle by more than 360/k in rank, and the fraction of items >= x when it is above (relative accuracy at both ends); whatever the coins the answer is at most 180/k outside the interval between the fractions of items < x and <= x. est_value_at_quantile(q), q < 1/2 (q > 1/2), has relative rank error at most e towards the lower (upper) end except with probability 48/(k e^2).", "quantifier": "all insertion histories, all values and quantiles, exact counting of coin flips; exact arithmetic", "why_tests_cant": "A statement about the distribution of answers for every history; the accuracy at the upper end comes from the mirrored sketch and from the choice between the two sides, which a test samples for a few values only.", "anchors": ["src/sym_digest.rs:est_quantile_at_value", "src/sym_digest.rs:est_value_at_quantile", "src/sym_digest.rs:add_buffer", "src/rc_sketch/rc_sketch2.rs:compress"]}
{"id": "C129", "title": "A buffered TDigest of few items is exact in floating point", "statement": "A BufferedDigest with any capacity except 0 around a TDigest<f64> with k0 and compression factor D up to 10^7 (f32: up to 900), after any mixture of insertions and queries that together inserts at least 2 and fewer than D items (finite numbers of the format of magnitude up to 2^970; f32: 2^103), answers est_quantile_at_value(x) bit for bit like a LinearDigest of the items inserted so far, and est_value_at_quantile(q) with the item that has floor(fl(n*q)) items before it in sorted order (the largest if there is none). Neither the capacity nor the queries in between matter.", "quantifier": "all capacities but 0, all histories of add, add_buffer and queries, all values and all quantiles in [0,1]; IEEE f64 and f32", "why_tests_cant": "How the items are split into batches depends on the capacity and on when queries flush the buffer; a test fixes one splitting and compares within a tolerance.", "anchors": ["src/buffered_digest.rs:est_quantile_at_value", "src/buffered_digest.rs:est_value_at_quantile", "src/buffered_digest.rs:flush", "src/t_digest/t_digest.rs:est_quantile_at_value"]}
{"id": "C130", "title": "insert_at_rc and insert_at_rc_batch insert weighted items", "statement": "On an RCSketch::new(n, k), an item passed to insert_at_rc or insert_at_rc_batch at level h counts as 2^h items: for even k the stored weight is the total weight supplied after any mixture of ordinary and level-wise calls; with default compaction the stored weight up to x differs from the supplied weight up to x by at most sum_h 2^h (compactions at level h), equals it in expectation, and has mean squared error at most 2 W^2/(k buffer_size) for total weight W; interpolate_rank returns the stored weight. No such call panics while levels are opened in order, no item is NaN and fewer items are passed than the capacity of C122; a call with items that skips a level panics. count() only counts the ordinary calls, so quantile queries after level-wise insertion can exceed 1.", "quantifier": "all n, k, all finite mixtures of add, add_buffer, add_buffer_fast, add_buffer_custom, insert_at_rc and insert_at_rc_batch calls, all coins, all values x; weights below 2^63 for interpolate_rank", "why_tests_cant": "The tests never call the two public functions at a level other than the one the sketch itself chooses; the accuracy statements range over all coins and all mixtures.", "anchors": ["src/rc_sketch/rc_sketch.rs:insert_at_rc", "src/rc_sketch/rc_sketch.rs:insert_at_rc_batch", "src/rc_sketch/rc_sketch.rs:interpolate_rank", "src/rc_sketch/rc_sketch.rs:count"]}
{"id": "C131", "title": "RCSketches can be merged level by level", "statement": "Let a and b be two RCSketches built independently with their own parameters, and let a client merge b into a through the public interface: pass each level h of b.buffers to a.insert_at_rc_batch at level h (default compaction, fast or not) and add b.count to a.count. Then count() is N1+N2; the stored weight is N1+N2 (even k's); if N1+N2 is below a's capacity and N2 below b's, nothing panics, the merged sketch is unbiased, E[stored weight up to x] = #{items of both <= x}, and its mean squared error is at most 2(N1+N2)^2/(k1 B1) + 2 N2^2/(k2 B2); for any b whatsoever the error added by the merge is at most the weighted number of compactions of a; interpolate_rank returns the stored weight for fewer than 2^63 items.", "quantifier": "all parameters, all insertion histories of both sketches, all coins of both, all values x, fast or ordinary compaction during the merge", "why_tests_cant": "Merging is what the public buffers and level-wise functions make possible, and is not tested at all; unbiasedness and the error bound are statements about the joint distribution of both sketches' coins.", "anchors": ["src/rc_sketch/rc_sketch.rs:insert_at_rc_batch", "src/rc_sketch/rc_sketch.rs:compact", "src/rc_sketch/rc_sketch.rs:interpolate_rank"]}
{"id": "C132", "title": "RCSketch stays unbiased and accurate beyond its declared length", "statement": "An RCSketch::new(n, k) with even k fed N items, where N may exceed the declared length n up to the capacity of C122: interpolate_rank(x) is unbiased, has mean squared error at most 2 N^2/(k buffer_size), and is off by eps*N or more with probability at most 2/(k buffer_size eps^2), whatever N is.", "quantifier": "all n, even k, all insertion histories with default compaction and fewer than min(capacity, 2^63) non-NaN items, all coins, all x, all eps > 0", "why_tests_cant": "A statement about the distribution over all coin sequences and about histories longer than the declared length, which no test supplies.", "anchors": ["src/rc_sketch/rc_sketch.rs:new", "src/rc_sketch/rc_sketch.rs:calc_buffer_size", "src/rc_sketch/rc_sketch.rs:compact", "src/rc_sketch/rc_sketch.rs:interpolate_rank"]}
{"id": "C133", "title": "RCSketches can be merged in any shape", "statement": "Let a client build any number of RCSketches with their own parameters, insert into them at any time, and merge them level by level (as in C131) in any order and shape, e.g. a tree of shards. The final count and stored weight are the number of all items supplied, stored items are supplied items, and, while every sketch receives fewer items (directly and by merging) than its capacity, nothing panics and interpolate_rank(x) is unbiased with mean squared error at most the sum over all sketches of 2 N^2/(k buffer_size), N the items that reached the sketch. 2^h shards of equal size merged pairwise have mean squared error at most 3 N^2/(k buffer_size), N the total number of items, whatever the number of shards.", "quantifier": "all merge trees, all even k >= 2, all insertion histories with default compaction, ordinary or fast compaction during merges, fewer than min(capacity, 2^63) non-NaN items, all coins, all x", "why_tests_cant": "A statement about all merge trees and the distribution over all coins of all sketches.", "anchors": ["src/rc_sketch/rc_sketch.rs:insert_at_rc_batch", "src/rc_sketch/rc_sketch.rs:compact", "src/rc_sketch/rc_sketch.rs:interpolate_rank"]}
{"id": "C134", "title": "Every public call of RCSketch2 may be mixed with insertions", "statement": "Calling insert, insert_batch, compress, grow and update_sections directly on an RCSketch2, at any time and mixed with add, add_buffer, add_buffer_fast and add_buffer_custom, keeps the sketch sound: sketch_size is the number of stored items and below get_sketch_capacity, count is the number of items supplied by the counting calls (insert and insert_batch do not count), nothing panics, ranks up to half a new buffer's capacity are exact, interpolate_rank is off by at most sum 2^h times the compactions of level h, is unbiased and has the mean squared error of C66. update_sections(h) never changes a sketch between calls (and panics when there is no buffer h). There are at most 50 levels plus one per grow call, so rank queries do not panic for up to 14 grow calls; after 64 grow calls every rank query panics.", "quantifier": "all lists of the nine calls in any order, k >= 4 (any admissible section sizes), fewer than 2^32 non-NaN items, default or fast compaction (any method for binary floating point where stated), all coins, all x", "why_tests_cant": "Maintenance calls at arbitrary points of arbitrary histories.", "anchors": ["src/rc_sketch/rc_sketch2.rs:compress", "src/rc_sketch/rc_sketch2.rs:grow", "src/rc_sketch/rc_sketch2.rs:update_sections", "src/rc_sketch/rc_sketch2.rs:insert", "src/rc_sketch/rc_sketch2.rs:insert_batch"]}
{"id": "C135", "title": "TDigests built separately may be merged in any shape", "statement": "A client that fills TDigests separately and merges them with a.add_centroid_buffer(b.centroids), in any tree of insertions and merges, with any scale functions and compression factors, gets a digest whose total weight (for plain items: count) and mass are those of everything supplied to any of them, whose centroids are sorted and between min and max, and whose min and max lie between the extremes supplied; nothing panics, quantile queries answer in [0,1] (0 below and 1 above everything supplied), value queries return, min at 0 and max at 1. The size bounds of the receiving digest hold whatever was merged in (k0: fewer than delta+1 centroids; k2, k2_asym, k3: at most delta+3). With k0 and factors of at least delta the rank error is at most max(M, W/delta) + (2/delta) * (the weight represented after each insertion call and each merge, added up), M the heaviest supplied cluster; for 2^h shards of any sizes, one batch each, merged in pairs, this is max(1, n/delta) + (h+1) * 2n/delta. In f64 (up to 2^52 items of magnitude up to 2^970) nothing panics, the count is exact, quantiles are in [0,1]. But merging loses the extremes: min and max of the merged digest are means of merged centroids, not the smallest and largest items.", "quantifier": "all trees of new / add / add_buffer / add_centroid_buffer / merge, all scale functions and compression factors (k0 and factors >= delta > 0 for the error bound), all items and positive weights in range (weights >= 1 for queries and sizes), all orders of ties in the unstable sort, all query arguments; exact arithmetic", "why_tests_cant": "Arbitrary merge trees over arbitrary digests; a test fixes one shape.", "anchors": ["src/t_digest/t_digest.rs:add_centroid_buffer", "src/t_digest/t_digest.rs:add_buffer", "src/t_digest/t_digest.rs:TDigest.centroids", "src/t_digest/t_digest.rs:est_quantile_at_value", "src/t_digest/t_digest.rs:est_value_at_quantile"]}
{"id": "C136", "title": "Accuracy of merged TDigests in floating point", "statement": "TDigests over f64 with k0, inv_k0 and one compression factor D (1 <= D <= 10^7; f32: 900), filled with together n (at most 2^52; f32: 2^23) items of magnitude up to 2^e and merged in any tree with a.add_centroid_buffer(b.centroids): with rho = 2/D + 40/2^53 and M = max(1, n rho) the merged digest keeps at most D+1 centroids; the quantile it answers for x is the rank of a value within depth * (M+1) * 2^e / 2^52 of x, up to rho * passes + 2M + n/2^51 items, where depth is the longest chain of insertion calls and merges and passes the weight represented after each of them, added up; the value it answers for a quantile q with n q < n - M/2 - n/2^51 is within (depth*(M+1)+12) * 2^e / 2^52 of a value of rank n q up to the same error. For 2^h shards of any sizes, one batch each, merged in pairs, depth is h+1 and passes (h+1) n.", "quantifier": "all trees of new / add / add_buffer / add_centroid_buffer / merge of plain items, all factors, magnitudes and counts in the stated ranges, all orders of ties in the unstable sort, all query arguments (values: outside the last half centroid)", "why_tests_cant": "Rounding in every weighted mean of every pass along every path of an arbitrary merge tree, at sizes no test reaches.", "anchors": ["src/t_digest/t_digest.rs:add_centroid_buffer", "src/t_digest/t_digest.rs:add_buffer", "src/t_digest/t_digest.rs:est_quantile_at_value", "src/t_digest/t_digest.rs:est_value_at_quantile", "src/t_digest/scale_functions.rs:k0", "src/t_digest/scale_functions.rs:inv_k0"]}
{"id": "C137", "title": "Accuracy towards both ends survives any number of batches and merges", "statement": "The point of the scale functions k2 and k3 is accuracy relative to the distance from either end. C86 shows it for one batch; this is kept, up to one factor per pass, by any tree of insertion calls and merges. Let all digests use k2 (or k3) with compression factor delta <= 10^5, W the whole supplied weight and r = 10^((4*log10(W/delta)+24)/delta) (21 for k3). A quantile query at x answers e such that W*e counts the data below x up to a factor r^depth, from below and from above at once: weight below x <= r^depth*(W*e+H), W*e <= r^depth*(weight up to x)+H, weight above x <= r^depth*(W-W*e+H), W-W*e <= r^depth*(weight from x on)+H, where H (at least 1) is half the weight of the heaviest centroid next to x and depth the number of passes on the longest path of the tree (for one digest: the number of insertion calls). The value found for a quantile q has the same property with W*q in place of W*e. No centroid is ever heavier than W*(r-1)/(r+1) or the heaviest supplied cluster.", "quantifier": "all delta in (0, 10^5], all trees of insertion calls and merges of digests with these scale functions, all supplied clusters in range with weights >= 1 and total below 2^64, all orders of ties in the unstable sort, all query arguments (value queries: outside the right half of the last centroid, C84); exact arithmetic", "why_tests_cant": "The drift accumulates over batches; tests compare one data set in one batch with fixed tolerances.", "anchors": ["src/t_digest/t_digest.rs:add_centroid_buffer", "src/t_digest/t_digest.rs:est_quantile_at_value", "src/t_digest/t_digest.rs:est_value_at_quantile", "src/t_digest/scale_functions.rs:k2", "src/t_digest/scale_functions.rs:k3"]}
{"id": "C138", "title": "Value and quantile queries of merged and of overfull RCSketches are accurate", "statement": "Let a sketch have been obtained by any tree of insertion calls and level-by-level merges of RCSketches (C133), N < 2^32 items in all, every sketch below its capacity; or let one RCSketch have been fed more items than declared, below its capacity (C122). est_value_at_quantile(q), q in [0,1], returns one of the supplied items, and except with probability at most 2V/d^2 at most q*N + d items lie below the answer and at least q*N - d are not above it, V the mean squared error bound of C133 (q*N as computed). For 2^h shards of equal size merged pairwise and d = e*N the probability is at most 6/(k*buffer_size*e^2), for one sketch beyond its declared length at most 4/(k*buffer_size*e^2), whatever N. est_quantile_at_value(x) is the stored weight up to x over N as computed, hence within e of the true quantile except with probability V/(e*N)^2 (exact arithmetic).", "quantifier": "all merge trees with even section sizes and default compaction, all inputs without NaN, all q in [0,1], all x that are not NaN, all d, e > 0; probability over the coin flips of all sketches", "why_tests_cant": "A probabilistic statement over all merge trees; tests run one sketch with one seed.", "anchors": ["src/rc_sketch/rc_sketch.rs:est_value_at_quantile", "src/rc_sketch/rc_sketch.rs:est_quantile_at_value", "src/rc_sketch/rc_sketch.rs:insert_at_rc_batch", "src/rc_sketch/rc_sketch.rs:interpolate_rank"]}
{"id": "C139", "title": "Rank error of digests with mixed scale functions through any batches and merges", "statement": "C135 bounds the rank error of merged digests for k0 only. This covers k0, k1, k2 and k3, and digests of different scale functions and compression factors merged into one another. Let c be such that every digest involved has 2/delta <= c (k0), pi/delta <= c (k1) or (r-1)/(r+1) <= c with r = 10^((4*log10(W/delta)+24)/delta) (k2; 21 for k3), W the whole supplied weight. Then, after any tree of insertion calls and merges, a quantile query at x answers e with W*e between the weight below x and the weight up to x, up to max(M, c*W/2) + c*P, where M bounds the supplied weights and P adds up the weight represented after every insertion call and merge (at most depth*W). Value queries have the same error. No centroid is heavier than max(M, c*W). For 2^h shards with k1, one batch each, merged in pairs: off by at most max(1, pi*n/(2*delta)) + (h+1)*pi*n/delta items; for one digest with k1 and B insertion calls: max(M, pi*W/(2*delta)) + B*pi*W/delta.", "quantifier": "all delta > 0 (k2, k3: up to 10^5), all trees of insertion calls and merges, all supplied clusters in range with weights >= 1, all orders of ties in the unstable sort, all query arguments (value queries: total below 2^64, outside the right half of the last centroid, C84); exact arithmetic", "why_tests_cant": "The error adds up over passes and the step of k1 is largest in the middle and folds over at the right end; tests look at one data set at a time, with one scale function.", "anchors": ["src/t_digest/t_digest.rs:add_centroid_buffer", "src/t_digest/t_digest.rs:est_quantile_at_value", "src/t_digest/t_digest.rs:est_value_at_quantile", "src/t_digest/scale_functions.rs:k0", "src/t_digest/scale_functions.rs:k1", "src/t_digest/scale_functions.rs:k2", "src/t_digest/scale_functions.rs:k3"]}
{"id": "C140", "title": "With k1 the error shrinks like the square root of the distance from the end", "statement": "k1 is meant to be more accurate near both ends. After one add_buffer call with n items on a new digest with k1 and compression factor delta, a quantile query at x is off, as a rank, by at most 3/2 times the larger of 1 and 2*(pi/delta)*sqrt(n*D) + 3*(pi/delta)^2*n, where D is the smaller of the numbers of items <= x and >= x. The value found for a quantile q has a rank within the same distance of n*q, unless q lies right of the middle of the last centroid (C84). So for D proportional to n the error is of order n/delta and near the ends of order n/delta^2.", "quantifier": "all delta > 0, all non-empty batches of items in range, fewer than 2^64, all orders of ties in the unstable sort, all query arguments (value queries: outside the right half of the last centroid); exact arithmetic", "why_tests_cant": "A bound on the worst case over all data sets and query points; inv_k1 turns back at the right end, which the bound has to survive. Tests compare single estimates with fixed tolerances.", "anchors": ["src/t_digest/t_digest.rs:add_buffer", "src/t_digest/t_digest.rs:est_quantile_at_value", "src/t_digest/t_digest.rs:est_value_at_quantile", "src/t_digest/scale_functions.rs:k1", "src/t_digest/scale_functions.rs:inv_k1"]}
{"id": "C141", "title": "The square-root law of k1 survives any number of batches and merges", "statement": "Let all digests use k1 with compression factors of at least delta, W the whole supplied weight, depth the number of passes on the longest path of the tree of insertion calls and merges, F = depth*(pi/delta)*sqrt(W). A quantile query at x answers e such that r = W*e counts the data below x up to F in the square root, from below and from above at once: weight below x <= (sqrt(r+H)+F)^2, r <= (sqrt(weight up to x)+F)^2+H, W-r <= (sqrt(weight from x on)+F)^2+H, weight above x <= (sqrt(W-r+H)+F)^2, where H (at least 1) is half the weight of the heaviest centroid next to x. The value found for a quantile q has the same property with W*q in place of r. No centroid is heavier than pi*W/delta or the heaviest supplied cluster.", "quantifier": "all delta > 0, all trees of insertion calls and merges of digests with k1, all supplied clusters in range with weights >= 1 and total below 2^64, all orders of ties in the unstable sort, all query arguments (value queries: outside the right half of the last centroid, C84); exact arithmetic", "why_tests_cant": "The drift accumulates over passes of different sizes; tests use one batch and compare single estimates.", "anchors": ["src/t_digest/t_digest.rs:add_centroid_buffer", "src/t_digest/t_digest.rs:est_quantile_at_value", "src/t_digest/t_digest.rs:est_value_at_quantile", "src/t_digest/scale_functions.rs:k1", "src/t_digest/scale_functions.rs:inv_k1"]}
{"id": "C142", "title": "Rank error of a ParTDigest with any of k0, k1, k2, k3", "statement": "Let a ParTDigest be made with k0, k1, k2 or k3 and let c be the largest fraction of the n supplied items that its scale function lets into one centroid (2/delta for k0, pi/delta for k1, (r-1)/(r+1) for k2 and k3, r the factor of one step). After any history, est_quantile_at_value(x) answers e with n*e within max(1, c*n/2) + p*c*n of the ranks of x, where p = 2 + calls that flush (queries, flush) + n/(capacity+1) bounds the passes over any item. est_value_at_quantile(q) answers a value whose ranks are as close to n*q.", "quantifier": "all delta > 0 (at most 10^5 for k2 and k3), all thread counts > 0, all capacities, all histories of add, add_buffer, queries and flush with finite items in range, fewer than 2^64, all orders of ties in the unstable sort, all query arguments (value queries: outside the right half of the last centroid, C84); exact arithmetic", "why_tests_cant": "Every flush clusters each chunk and then clusters the clusters; tests compare a few estimates of one fixed history.", "anchors": ["src/t_digest/par_t_digest.rs:flush", "src/t_digest/par_t_digest.rs:est_quantile_at_value", "src/t_digest/par_t_digest.rs:est_value_at_quantile", "src/t_digest/t_digest.rs:add_centroid_buffer"]}
{"id": "C143", "title": "A ParTDigest with k2 or k3 stays accurate towards both ends", "statement": "Let a ParTDigest be made with k2 or k3 and compression factor delta, n the number of supplied items, r = 10^((4*log10(n/delta)+m)/delta) with m = 24 (k2) or 21 (k3), p = 2 + calls that flush + n/(capacity+1). After any history a quantile query at x answers e such that n*e counts the data below x up to the factor r^p, from below and from above at once, and H, half the weight of the heaviest centroid next to x (at least 1): items below x <= r^p*(n*e+H), n*e <= r^p*(items up to x)+H, n-n*e <= r^p*(items from x on)+H, items above x <= r^p*(n-n*e+H). The value found for a quantile has the same property. No centroid is heavier than max(1, n*(r-1)/(r+1)).", "quantifier": "all 0 < delta <= 10^5, all thread counts > 0, all capacities, all histories of add, add_buffer, queries and flush with finite items in range, fewer than 2^64, all orders of ties in the unstable sort, all query arguments (value queries: outside the right half of the last centroid, C84); exact arithmetic", "why_tests_cant": "That chunking and reclustering does not spoil the accuracy of the tails is a statement about all data and all flush patterns.", "anchors": ["src/t_digest/par_t_digest.rs:flush", "src/t_digest/par_t_digest.rs:est_quantile_at_value", "src/t_digest/par_t_digest.rs:est_value_at_quantile", "src/t_digest/t_digest.rs:add_centroid_buffer"]}
{"id": "C144", "title": "The square-root law of k1 for a ParTDigest", "statement": "Let a ParTDigest be made with k1 and compression factor delta, n the number of supplied items, p = 2 + calls that flush + n/(capacity+1), F = p*(pi/delta)*sqrt(n). After any history a quantile query at x answers e such that n*e counts the data below x up to F in the square root and H, half the weight of the heaviest centroid next to x (at least 1), from below and from above at once: items below x <= (sqrt(n*e+H)+F)^2, n*e <= (sqrt(items up to x)+F)^2+H, and the same from above. The value found for a quantile has the same property. No centroid is heavier than max(1, pi*n/delta).", "quantifier": "all delta > 0, all thread counts > 0, all capacities, all histories of add, add_buffer, queries and flush with finite items in range, fewer than 2^64, all orders of ties in the unstable sort, all query arguments (value queries: outside the right half of the last centroid, C84); exact arithmetic", "why_tests_cant": "A statement about all data, chunkings and flush patterns; tests use the default digest with one batch.", "anchors": ["src/t_digest/par_t_digest.rs:flush", "src/t_digest/par_t_digest.rs:est_quantile_at_value", "src/t_digest/par_t_digest.rs:est_value_at_quantile", "src/t_digest/t_digest.rs:add_centroid_buffer"]}
{"id": "C145", "title": "k2_asym is accurate towards the lower end, through merges", "statement": "Let TDigests be made with k2_asym and compression factor delta, and r = 10^((4*log10(n/(2*delta))+24)/(2*delta)) for the total weight n. However digests were filled and merged, with at most m compression passes over any item: a quantile query at x answers e such that n*e counts the data below x up to the factor r^m from the lower end and up to H, half the weight of the heaviest centroid next to x (at least 1): weight below x <= r^m*(n*e+H), n*e <= r^m*(weight up to x)+H. The value found for a quantile has the same property. No centroid is heavier than the heaviest supplied cluster and (r-1)/2*n, and ranks are off by at most half that plus m*(r-1)/2*n anywhere.", "quantifier": "all delta with 0 < delta <= 50000, all trees of insertions and merges (by add_centroid_buffer) of digests with k2_asym and that delta, all finite items and clusters of weight at least 1 in range with total below 2^64, all orders of ties in the unstable sort, all query arguments (value queries: outside the right half of the last centroid, C84); exact arithmetic", "why_tests_cant": "A statement about all data and all ways of batching and merging; the repository has no test of a digest with k2_asym and comparing a few points cannot show that the error shrinks in proportion towards the lower end.", "anchors": ["src/t_digest/scale_functions.rs:k2_asym", "src/t_digest/scale_functions.rs:inv_k2_asym", "src/t_digest/t_digest.rs:add_buffer", "src/t_digest/t_digest.rs:add_cluster", "src/t_digest/t_digest.rs:add_centroid_buffer", "src/t_digest/t_digest.rs:est_quantile_at_value", "src/t_digest/t_digest.rs:est_value_at_quantile"]}
{"id": "C146", "title": "k2_asym in a ParTDigest: accurate towards the lower end after any history", "statement": "Let a ParTDigest be made with k2_asym and compression factor delta, n the number of supplied items, p = 2 + calls that flush + n/(capacity+1), r = 10^((4*log10(n/(2*delta))+24)/(2*delta)). After any history a quantile query at x answers e such that items below x <= r^p*(n*e+H) and n*e <= r^p*(items up to x)+H, with H half the weight of the heaviest centroid next to x (at least 1); anywhere the rank is off by at most max(1,(r-1)/4*n) + p*(r-1)/2*n. The same for the value found for a quantile. No centroid is heavier than max(1,(r-1)/2*n).", "quantifier": "all delta with 0 < delta <= 50000, all thread counts > 0, all capacities, all histories of add, add_buffer, queries and flush with finite items in range, fewer than 2^64, all orders of ties in the unstable sort, all query arguments (value queries: outside the right half of the last centroid, C84); exact arithmetic", "why_tests_cant": "A statement about all data, chunkings and flush patterns; no test uses this scale function in a digest.", "anchors": ["src/t_digest/scale_functions.rs:k2_asym", "src/t_digest/par_t_digest.rs:flush", "src/t_digest/par_t_digest.rs:est_quantile_at_value", "src/t_digest/par_t_digest.rs:est_value_at_quantile"]}
{"id": "C147", "title": "A SymDigest of two TDigests with k2_asym is accurate at both ends", "statement": "Let a SymDigest be made from two TDigests with k2_asym and compression factor delta and be given n items in B calls; r = 10^((4*log10(n/(2*delta))+24)/(2*delta)), E = max(1,(r-1)/4*n) + B*(r-1)/2*n. A quantile query at x answers e with n*e within E ranks of x. If fewer than n/2 - E items are at most x, n*e counts the data below x up to the factor r^B and H from the lower end, H half the weight of the heaviest centroid of the lower digest next to x (at least 1); if fewer than n/2 - E items are at least x, n - n*e counts the data above x likewise, with the upper digest. A value query for q < 1/2 or q > 1/2 finds a value with the same properties for n*q; the defect of value queries at the right end of a TDigest (C84) is never met; no query panics.", "quantifier": "all delta with 0 < delta <= 50000, all non-empty histories of add and add_buffer through the Digest trait with finite items in range, fewer than 2^64, all orders of ties in the unstable sort, all finite x, all q in [0,1] but 1/2; exact arithmetic", "why_tests_cant": "The combination of two digests, one over negated items, is tested with single data sets; that relative accuracy holds at both ends for all data is a statement about every history.", "anchors": ["src/sym_digest.rs:est_quantile_at_value", "src/sym_digest.rs:est_value_at_quantile", "src/sym_digest.rs:add_buffer", "src/t_digest/scale_functions.rs:k2_asym", "src/t_digest/t_digest.rs:est_quantile_at_value", "src/t_digest/t_digest.rs:est_value_at_quantile"]}
{"id": "C148", "title": "Rank errors of the sub-digests of a ParallelDigest add up", "statement": "If every sub-digest, fed its share of the history, counts the items of its share and answers every quantile query off by at most E_j of their ranks, the ParallelDigest answers quantile queries off by at most the sum of the E_j, and a value query for q finds a value off from the quantile by at most that many ranks, up to a millionth of |smallest|+|largest| in the value. For m TDigests with k0, k1, k2 or k3 of which every one got an item, where no more than the fraction c of the data may go into one centroid, after B calls with N items the bound is m + (B+1/2)*c*N; no query panics.", "quantifier": "all sub-digests of any kind, all non-empty histories of add and add_buffer (non-empty slices) with finite items in range, all finite x, all q in [0,1]; for TDigests all m >= 1, fewer than 2^64 items, all orders of ties in the unstable sort; exact arithmetic", "why_tests_cant": "Tests compare a ParallelDigest with a few data sets split in one way; that the error of the whole never exceeds the sum of the parts, for value queries through the bisection as well, concerns all splits and all digests.", "anchors": ["src/parallel_digest.rs:est_quantile_at_value", "src/parallel_digest.rs:est_value_at_quantile", "src/parallel_digest.rs:add_buffer", "src/t_digest/t_digest.rs:est_quantile_at_value"]}
{"id": "C149", "title": "A ParallelDigest of TDigests with k2 or k3 keeps the relative accuracy at both ends", "statement": "Let m TDigests with k2 or k3 and compression factor delta form a ParallelDigest that is given N items in B calls, every sub-digest at least one. With r = 10^((4*log10(N/delta)+24)/delta) for k2 and 21 in place of 24 for k3, the answer e to a quantile query at x satisfies: N*e counts the data below x up to the factor r^B, from either end, up to the sum over the sub-digests of half the weight of the heaviest centroid next to x (at least 1 each).", "quantifier": "all m >= 1, all delta with 0 < delta <= 10^5, all histories of add and add_buffer (non-empty slices) with finite items in range giving every sub-digest an item, fewer than 2^64 items, all orders of ties in the unstable sort, all finite x; exact arithmetic", "why_tests_cant": "That sharding keeps the tail accuracy t-digests are used for is a statement about every history and every way the slices fall to the sub-digests; a test observes the tails of one data set.", "anchors": ["src/parallel_digest.rs:est_quantile_at_value", "src/parallel_digest.rs:add_buffer", "src/t_digest/t_digest.rs:est_quantile_at_value", "src/t_digest/scale_functions.rs:k2", "src/t_digest/scale_functions.rs:k3"]}
{"id": "C150", "title": "Rank error of a buffered TDigest with any of k0, k1, k2, k3", "statement": "Let a TDigest in a BufferedDigest be made with k0, k1, k2 or k3 and let c be the largest fraction of the n supplied items that its scale function lets into one centroid (2/delta for k0, pi/delta for k1, (r-1)/(r+1) for k2 and k3, r the factor of one step). After any history, est_quantile_at_value(x) answers e with n*e within max(1, c*n/2) + p*c*n of the ranks of x, where p = 1 + calls that flush (queries, flush) + n/(capacity+1) bounds the batches handed to the TDigest. est_value_at_quantile(q) answers a value whose ranks are as close to n*q.", "quantifier": "all delta > 0 (at most 10^5 for k2 and k3), all capacities >= 1, all histories of add, add_buffer, queries and flush with finite items in range, fewer than 2^64, all orders of ties in the unstable sort, all query arguments (value queries: outside the right half of the last centroid, C84); exact arithmetic; exact arithmetic", "why_tests_cant": "A test fixes one capacity and one data set; how the error grows with the number of batches a buffer hands on, for every capacity and every interleaving of queries and flushes, is a statement about all histories.", "anchors": ["src/buffered_digest.rs:flush", "src/buffered_digest.rs:add_buffer", "src/buffered_digest.rs:est_quantile_at_value", "src/buffered_digest.rs:est_value_at_quantile", "src/t_digest/t_digest.rs:est_quantile_at_value", "src/t_digest/scale_functions.rs:k1", "src/t_digest/scale_functions.rs:k2", "src/t_digest/scale_functions.rs:k3"]}
{"id": "C151", "title": "A buffered TDigest with k2 or k3 keeps relative accuracy at both ends", "statement": "A TDigest with k2 or k3 and compression factor delta in a BufferedDigest, after any history that supplied n items: the answer e to a quantile query at x counts the data (n*e) up to the factor r^p from either end and up to half the weight of the heaviest centroid next to x (at least 1), where p = 1 + calls that flush (queries, flush) + n/(capacity+1) bounds the batches handed to the TDigest and r = 10^((4*log10(n/delta)+24)/delta) for k2, 21 in place of 24 for k3; no centroid is heavier than max(1, n*(r-1)/(r+1)). Value queries likewise.", "quantifier": "all delta with 0 < delta <= 10^5, all capacities >= 1, all histories of add, add_buffer, queries and flush with finite items in range, fewer than 2^64, all orders of ties in the unstable sort, all query arguments (value queries: outside the right half of the last centroid, C84); exact arithmetic; exact arithmetic", "why_tests_cant": "A test fixes one capacity and one data set; how the error grows with the number of batches a buffer hands on, for every capacity and every interleaving of queries and flushes, is a statement about all histories.", "anchors": ["src/buffered_digest.rs:flush", "src/buffered_digest.rs:add_buffer", "src/buffered_digest.rs:est_quantile_at_value", "src/buffered_digest.rs:est_value_at_quantile", "src/t_digest/t_digest.rs:est_quantile_at_value", "src/t_digest/scale_functions.rs:k2", "src/t_digest/scale_functions.rs:k3"]}
{"id": "C152", "title": "A buffered TDigest with k1 keeps square-root accuracy", "statement": "A TDigest with k1 and compression factor delta in a BufferedDigest, after any history that supplied n items: the square roots of the rank answered by a quantile query and of that of the data differ by at most p*(pi/delta)*sqrt(n), from either end, up to half the weight of the heaviest centroid next to x (at least 1), where p = 1 + calls that flush (queries, flush) + n/(capacity+1) bounds the batches handed to the TDigest; no centroid is heavier than max(1, pi*n/delta). Value queries likewise.", "quantifier": "all delta > 0, all capacities >= 1, all histories of add, add_buffer, queries and flush with finite items in range, fewer than 2^64, all orders of ties in the unstable sort, all query arguments (value queries: outside the right half of the last centroid, C84); exact arithmetic; exact arithmetic", "why_tests_cant": "A test fixes one capacity and one data set; how the error grows with the number of batches a buffer hands on, for every capacity and every interleaving of queries and flushes, is a statement about all histories.", "anchors": ["src/buffered_digest.rs:flush", "src/buffered_digest.rs:add_buffer", "src/buffered_digest.rs:est_quantile_at_value", "src/buffered_digest.rs:est_value_at_quantile", "src/t_digest/t_digest.rs:est_quantile_at_value", "src/t_digest/scale_functions.rs:k1"]}
{"id": "C153", "title": "Rank errors of the members of a MultiDigest average", "statement": "If every member of a MultiDigest, alone and after the same history, answers quantile queries off by at most E_j ranks, the MultiDigest answers them off by at most the mean of the E_j. If every member finds, for a quantile q, a value within E ranks of q*N, so does the MultiDigest. For TDigests, each with k0, k1, k2 or k3 and a compression factor of its own such that no more than the fraction c_j of the N items may go into one centroid, after B insertion calls E_j = max(1, c_j*N/2) + B*c_j*N, value queries being so accurate where N*q < N - max(1, c_j*N)/2 or N*q > N-1. No query panics.", "quantifier": "all members of any kind (at least one), all histories of insertions and queries, all finite x, all q; for TDigests all histories of add and add_buffer with finite items in range, fewer than 2^64, all orders of ties in the unstable sort; exact arithmetic", "why_tests_cant": "Tests average a few sketches over one data set; that averaging never makes the worst case worse than the mean (quantiles) or the largest (values) of the members' errors concerns all digests, histories and queries.", "anchors": ["src/multi_digest.rs:est_quantile_at_value", "src/multi_digest.rs:est_value_at_quantile", "src/t_digest/t_digest.rs:est_quantile_at_value"]}
{"id": "C154", "title": "A SymDigest is as accurate as its sides", "statement": "If the lower digest of a SymDigest, fed the items, and the upper one, fed the negated items, both answer quantile queries off by at most E ranks, so does the SymDigest. If for a quantile q <= 1/2 the lower digest, and for q >= 1/2 the upper digest at 1-q, finds a value within E ranks, so does the SymDigest, at the median too where it averages the two. For two TDigests with k0, k1, k2 or k3 such that no more than the fraction c of the N items may go into one centroid, after B insertion calls E = max(1, c*N/2) + B*c*N; if c < 1 and N > 1 value queries have that accuracy at every q in [0,1]: the defect of value queries at the right end of a TDigest (C84) is never met.", "quantifier": "all sub-digests of any kind, all histories of add and add_buffer with finite items, all finite x, all q in [0,1]; for TDigests items in range, fewer than 2^64, all orders of ties in the unstable sort; exact arithmetic", "why_tests_cant": "Tests check a few quantiles of one data set; the claim concerns every digest on either side, every history and every query.", "anchors": ["src/sym_digest.rs:est_quantile_at_value", "src/sym_digest.rs:est_value_at_quantile", "src/t_digest/t_digest.rs:est_quantile_at_value"]}
{"id": "C155", "title": "Rank error of TDigests with any scale function, k2n included, pass by pass", "statement": "Digests with k0, k1, k2, k3, k2_asym and k2n, of any compression factors, are filled and merged in any shape. If G(n) bounds what each of the scale functions used lets a pass put into one centroid when the digest then has weight n (2n/d for k0, pi*n/d for k1, n*(r-1)/(r+1) with r = 10^((4*log10(n/d)+m)/d), m = 24 for k2 and 21 for k3, n*(r-1)/2 with k2's r at 2d for k2_asym, and k2's term at d' = d/10*log10(n)^2 for k2n), then no centroid is heavier than the largest G(n) of the passes (or a supplied cluster), and quantile queries are off by at most half of that plus the sum of G(n) over all insertion calls and merges; likewise value queries that are not in the right half of the last centroid. For one digest with k2n the sum runs over its insertion calls.", "quantifier": "all trees of digests, insertion calls (items or weighted clusters of weight at least 1) and merges, all compression factors (k2, k3 and the d' of k2n up to 10^5, k2_asym up to 5*10^4), all finite x, all q, all orders of ties in the unstable sort; exact arithmetic", "why_tests_cant": "k2n changes its effective compression factor with every batch, so the accuracy of a digest depends on the whole schedule of batch sizes; tests fix one schedule and compare one data set.", "anchors": ["src/t_digest/t_digest.rs:add_centroid_buffer", "src/t_digest/t_digest.rs:est_quantile_at_value", "src/t_digest/scale_functions.rs:k2n", "src/t_digest/scale_functions.rs:inv_k2n"]}
{"id": "C156", "title": "Shuffling before building keeps searches in a KeyedSumTree short", "statement": "Build a KeyedSumTree from n (key, weight) pairs with distinct keys, all n! orders being equally likely, as add_cluster_tree does by shuffling. less_than_sum(t) then visits H_a + H_b nodes on average, where a keys are below t and b are not (H_m = 1 + 1/2 + ... + 1/m); so does insert of a fresh key t; closest_keys(t) visits at most as many, and exactly as many when t is not a key. This is at most 2 + 2*ln(n). Without the shuffle, on keys inserted in increasing order, a search beyond them visits all n nodes.", "quantifier": "all lists of pairs with distinct keys that are not NaN, all t that are not NaN, any rounding; averages over all n! orders", "why_tests_cant": "An average over all n! insertion orders cannot be computed by running examples, and a degenerate order is rare in tests; the cost of add_cluster_tree rests on it.", "anchors": ["src/util/keyed_sum_tree.rs:less_than_sum", "src/util/keyed_sum_tree.rs:insert", "src/util/keyed_sum_tree.rs:closest_keys", "src/t_digest/t_digest.rs:add_cluster_tree"]}
{"id": "C157", "title": "RCSketch rank errors have exponentially small tails", "statement": "With fair coins, even section sizes, default/fast compaction and every sketch below its capacity (C122), also beyond the declared length: interpolate_rank(x) of an RCSketch with N items is off by e*N or more with probability at most 2*exp(-e^2*k*buffer_size/4). For 2^h equal shards sketched separately and merged pairwise level by level it is at most 2*exp(-e^2*k*buffer_size/6), whatever h; for any tree of insertions and merges at most 2*exp(-d^2/(2V)) for an error of d, V the variance bound of C133.", "quantifier": "all trees of insertion calls and merges, parameters, items, x, error levels and coin distributions induced by fair coins", "why_tests_cant": "Failure probabilities of one in a million or less cannot be observed in tests, and the variance bounds of C61/C62 only give probabilities that fall with the square of the error.", "anchors": ["src/rc_sketch/rc_sketch.rs:insert_at_rc", "src/rc_sketch/rc_sketch.rs:compact", "src/rc_sketch/rc_sketch.rs:interpolate_rank"]}
{"id": "C158", "title": "All quantiles of an RCSketch are accurate at the same time", "statement": "Under the conditions of C157, for any m >= 1: except with probability at most 2*m*exp(-k*buffer_size/(4*m^2)) every interpolate_rank(x), for all x at once, is off by less than 2*N/m, and every est_value_at_quantile(q), for all q at once, returns an item with fewer than q*N + 2*N/m items below it and more than q*N - 2*N/m not above it (N < 2^32, counts exactly representable). For any tree of insertions and merges the same holds with errors below d + N/m and probability at most 2*m*exp(-d^2/(2V)), V the variance bound of C133.", "quantifier": "all trees of insertion calls and merges, parameters, items, numbers of strips m, and all queries simultaneously", "why_tests_cant": "A per-query probability says nothing about a whole plotted curve or a sequence of adaptively chosen queries; no finite set of queries covers all x and q.", "anchors": ["src/rc_sketch/rc_sketch.rs:interpolate_rank", "src/rc_sketch/rc_sketch.rs:est_value_at_quantile", "src/rc_sketch/rc_sketch.rs:compact"]}
{"id": "C159", "title": "RCSketch2 rank errors have exponentially small tails", "statement": "With fair coins, k >= 264 (sections as the code computes them in f32; 256 in exact arithmetic), fewer than 2^32 non-NaN items and any mix of default and fast insertions: interpolate_rank(x) of an RCSketch2 with N items is off by e*N or more with probability at most 2*exp(-(k*e)^2/6). For other section sizes the probability of an error of d is at most 2*exp(-d^2/(2V)), V the bound of C98 on the mean squared error.", "quantifier": "all histories of insertion calls, section sizes, items, x, error levels", "why_tests_cant": "Failure probabilities of one in a million or less cannot be observed in tests, and the mean squared error of C98 only gives probabilities that fall with the square of the error.", "anchors": ["src/rc_sketch/rc_sketch2.rs:compress", "src/rc_sketch/rc_sketch2.rs:compact", "src/rc_sketch/rc_sketch2.rs:interpolate_rank"]}
{"id": "C160", "title": "All quantiles of an RCSketch2 are accurate at the same time", "statement": "Under the conditions of C159, for any m >= 1: except with probability at most 2*m*exp(-(k/m)^2/6) every interpolate_rank(x), for all x at once, is off by less than 2*N/m, and every est_value_at_quantile(q), for all q at once, returns an item with fewer than q*N + 2*N/m items below it and more than q*N - 4*N/m not above it (counts up to 2N exactly representable; the stored weight of an RCSketch2 is itself random, hence the second factor two).", "quantifier": "all histories of insertion calls, section sizes, items, numbers of strips m, and all queries simultaneously", "why_tests_cant": "A per-query probability says nothing about a whole plotted curve or a sequence of adaptively chosen queries; no finite set of queries covers all x and q.", "anchors": ["src/rc_sketch/rc_sketch2.rs:interpolate_rank", "src/rc_sketch/rc_sketch2.rs:est_value_at_quantile", "src/rc_sketch/rc_sketch2.rs:compress"]}
{"id": "C161", "title": "Averaging m independent sketches in a MultiDigest multiplies the exponent of the tail by m", "statement": "Exact arithmetic. If every member of a MultiDigest answers est_quantile_at_value(x) with a whole number of n-ths whose deviation from R has exponential moments (both signs, all bases) no larger than those of V fair signs, then the same holds for the MultiDigest with m*n, m*R and m*V, it counts m*n items, no call panics, and its answer is off from R/n by eps or more with probability at most 2*exp(-m*(eps*n)^2/(2V)). In particular for m members RCSketch::new(n,k), k even, fed through the trait below the capacity of C122 (fewer than 2^32 items): probability at most 2*exp(-eps^2*m*k*B/4), B the buffer size; for m RCSketch2 with parameter k: at most 2*exp(-m*(k*eps)^2/6).", "quantifier": "all numbers of members, histories of add and add_buffer of non-NaN items, query points x, eps, tie orders; probabilities over the independent coins of all members; nested wrappers allowed; exact arithmetic", "why_tests_cant": "C73 and C74 bound the variance only, so Chebyshev gives polynomial tails; whether averaging really makes large errors exponentially rare depends on the joint distribution over all coins of all members, which sampling cannot establish for probabilities of this size.", "anchors": ["src/multi_digest.rs:est_quantile_at_value", "src/multi_digest.rs:add_buffer", "src/rc_sketch/rc_sketch.rs:insert_at_rc", "src/rc_sketch/rc_sketch2.rs:compress"]}
{"id": "C162", "title": "Splitting a batch over m sketches in a ParallelDigest also multiplies the exponent of the tail", "statement": "Exact arithmetic. If the i-th member of a ParallelDigest, after its share of the history, answers est_quantile_at_value(x) with a whole number of n_i-ths whose deviation from R_i has exponential moments no larger than those of V_i fair signs, then the ParallelDigest counts the sum of the n_i, does not panic, and its answer concentrates around sum R_i / sum n_i with sum V_i signs. In particular for members RCSketch::new(n,k), k even, all fed, no share longer than s (below the capacity, fewer than 2^32): an answer is off by eps or more with probability at most 2*exp(-eps^2*(N/s)*k*B/4); for RCSketch2: at most 2*exp(-(N/s)*(k*eps)^2/6). With equal shares N/s is the number of members: as accurate as a MultiDigest of that many sketches each of which sees all items.", "quantifier": "all numbers of members, histories of non-empty batches and single non-NaN items, shares, query points x, eps, tie orders; probabilities over the independent coins of all members; exact arithmetic", "why_tests_cant": "How a batch is cut into shares and how the shares' random errors add up decides the tail; tests run one split with one seed and cannot see probabilities.", "anchors": ["src/parallel_digest.rs:add_buffer", "src/parallel_digest.rs:est_quantile_at_value", "src/rc_sketch/rc_sketch.rs:insert_at_rc", "src/rc_sketch/rc_sketch2.rs:compress"]}
{"id": "C163", "title": "RCSketch rank errors relative to the rank have exponentially small tails", "statement": "With fair coins, an even section size k, default compaction, at most input_length items and no fast insertions, interpolate_rank(x) of an RCSketch is off by more than e times the true rank of x (the number of items <= x, not the number of items) with probability at most 2*exp(-e^2*k*buffer_size/32) + ceil(log2(input_length/k))*exp(-k*buffer_size/32), for every x, however small its rank. With fast insertions in any mixture k*buffer_size is replaced by buffer_size.", "quantifier": "all sequences of insertion calls, parameters, items, x, error levels e >= 0", "why_tests_cant": "This is the guarantee relative-error sketches are used for. It is about ranks of any size, adversarial orders and probabilities far too small to observe; the variance bound of C92 only gives 2/(k*e)^2.", "anchors": ["src/rc_sketch/rc_sketch.rs:insert_at_rc", "src/rc_sketch/rc_sketch.rs:compact", "src/rc_sketch/rc_sketch.rs:interpolate_rank"]}
{"id": "C164", "title": "All quantiles of an RCSketch have small relative error at the same time", "statement": "Under the conditions of C163 (no fast insertions), for 0 <= e <= 1 and any m with (1+e)^m >= N, N the number of items: except with probability at most 2*(m+1) times the bound of C163, every interpolate_rank(x), for all x at once, is off by at most 3*e times the rank of x, and every est_value_at_quantile(q), for all q at once, returns one of the items such that (1-3e) times the number of items below it is at most q*N and (1+3e) times the number of items not above it is at least q*N (counts exactly representable).", "quantifier": "all sequences of insertion calls, parameters, items, error levels, and all queries simultaneously", "why_tests_cant": "No finite set of queries covers all x and q, and the failure probability is too small to be seen in repeated runs.", "anchors": ["src/rc_sketch/rc_sketch.rs:interpolate_rank", "src/rc_sketch/rc_sketch.rs:est_value_at_quantile", "src/rc_sketch/rc_sketch.rs:compact"]}
{"id": "C165", "title": "RCSketch2 rank errors relative to the rank have exponentially small tails", "statement": "With fair coins, 264 <= k < 2^24, default compaction, fewer than 2^32 items and default and fast insertions in any mixture, interpolate_rank(x) of an RCSketch2 is off by more than e times the true rank of x (the number of items <= x, not the number of items) with probability at most 2*exp(-3*e^2*k/16) + 22*exp(-3*k/16), for every x, however small its rank; section sizes may be those of exact arithmetic or the f32 ones of the code.", "quantifier": "all sequences of insertion calls, k, items, x, error levels e >= 0", "why_tests_cant": "Relative-error sketches are used for this guarantee. It is about ranks of any size, adversarial orders and probabilities far too small to observe; the variance bound of C100 only gives 4/(k*e^2).", "anchors": ["src/rc_sketch/rc_sketch2.rs:insert_batch", "src/rc_sketch/rc_sketch2.rs:compact_buffer", "src/rc_sketch/rc_sketch2.rs:interpolate_rank"]}
{"id": "C166", "title": "All quantiles of an RCSketch2 have small relative error at the same time", "statement": "Under the conditions of C165, for 0 <= e <= 1 and any m with (1+e)^m >= N, N the number of items: except with probability at most 2*(m+1) times the bound of C165, every interpolate_rank(x), for all x at once, is off by at most 3*e times the rank of x, and every est_value_at_quantile(q), for all q at once, returns one of the items such that (1-3e) times the number of items below it is at most q*N and (1+3e) times the number of items not above it is at least (1-3e)*q*N (counts up to 2N exactly representable).", "quantifier": "all sequences of insertion calls, k, items, error levels, and all queries simultaneously", "why_tests_cant": "No finite set of queries covers all x and q, and the failure probability is too small to be seen in repeated runs.", "anchors": ["src/rc_sketch/rc_sketch2.rs:interpolate_rank", "src/rc_sketch/rc_sketch2.rs:est_value_at_quantile", "src/rc_sketch/rc_sketch2.rs:compact_buffer"]}
{"id": "C167", "title": "All answers of a SymDigest of relative-error sketches are accurate towards both ends at the same time", "statement": "A SymDigest of two RCSketches new(n, k), k even, is given N items, 1 <= N <= n, with fair coins. For 0 <= e <= 1/9 and any m with (1+e)^m >= N, except with probability at most 4*(m+1)*(2*exp(-e^2*k*B/32) + L*exp(-k*B/32)), B the buffer size and L = ceil(log2(n/k)): every est_quantile_at_value(x), for all x at once, is, in ranks, within 6*e*min(#items <= x, #items >= x) of a number between #items < x and #items <= x. Except with that probability every est_value_at_quantile(q), for all q < 1/2 at once, is an item v with (1-3e)*#(items < v) <= q*N <= (1+3e)*#(items <= v), and for all q > 1/2 an item with (1-3e)*#(items > v) <= (1-q)*N <= (1+3e)*#(items >= v). For two RCSketch2s (264 <= k < 2^24, fewer than 2^32 items) the same holds with probability 4*(m+1)*(2*exp(-3*e^2*k/16) + 22*exp(-3*k/16)), the target of value queries reduced by the factor 1-3e. Exact arithmetic.", "quantifier": "all histories of insertions, parameters, items, error levels, and all queries simultaneously; two independent sets of coins; exact arithmetic", "why_tests_cant": "Accuracy at both ends for all queries at once is what the wrapper is for; it joins two randomised sketches and a comparison of their answers, and the failure probability is too small to observe.", "anchors": ["src/sym_digest.rs:est_quantile_at_value", "src/sym_digest.rs:est_value_at_quantile", "src/rc_sketch/rc_sketch.rs:interpolate_rank", "src/rc_sketch/rc_sketch2.rs:interpolate_rank"]}
{"id": "C168", "title": "MultiDigest and ParallelDigest keep the relative accuracy of their sketches for all queries at the same time", "statement": "If with probability at least 1 - P each member of a MultiDigest answers every est_quantile_at_value(x), for all x at once, within 3*e*#(items <= x) ranks, then with probability at least 1 - m*P so does the MultiDigest of m members. If each member of a ParallelDigest does so on its non-empty share, the ParallelDigest does so on all items with probability at least 1 - m*P: the errors of the shares do not add up beyond the fraction 3*e of the total rank. For m RCSketches new(n, k), k even, 0 <= e <= 1/9, (1+e)^j >= n (at most n items per sketch), P = 2*(j+1)*(2*exp(-e^2*k*B/32) + L*exp(-k*B/32)); for RCSketch2 (264 <= k < 2^24) P = 2*(j+1)*(2*exp(-3*e^2*k/16) + 22*exp(-3*k/16)). For finite items est_value_at_quantile(q) of the MultiDigest, for all q in [0,1] at once, is a number v with (1-3e)*#(items < v) <= q*N <= (1+3e)*#(items <= v) (RCSketch2: target reduced by the factor 1-3e). est_value_at_quantile(q) of the ParallelDigest of finite items, for all q in [0,1] at once, is a number v between the smallest item lo and the largest hi with q*N <= (1+3e)*#(items <= v) and (1-3e)*#(items < s) <= q*N for some s <= v with v - s <= (|lo|+|hi|)/10^6. Exact arithmetic.", "quantifier": "all histories of insertions, numbers of members, parameters, items, error levels, and all queries simultaneously; independent coins of the members; exact arithmetic", "why_tests_cant": "Sharding a stream over sketches is only useful if the tail accuracy of the parts carries over to the whole; the failure event is too rare to sample, and it concerns all queries at once.", "anchors": ["src/multi_digest.rs:est_quantile_at_value", "src/multi_digest.rs:est_value_at_quantile", "src/parallel_digest.rs:add_buffer", "src/parallel_digest.rs:est_quantile_at_value", "src/parallel_digest.rs:est_value_at_quantile", "src/rc_sketch/rc_sketch.rs:interpolate_rank", "src/rc_sketch/rc_sketch2.rs:interpolate_rank"]}
{"id": "C169", "title": "Nested wrappers keep the relative accuracy of the sketches inside", "statement": "Say a digest is (c, P)-sure if it surely counts every item c times and, with probability at least 1 - P, answers all est_quantile_at_value(x) at once within 3*e*#(items <= x) ranks. A MultiDigest of m (c, P)-sure digests is (m*c, m*P)-sure; a ParallelDigest of m digests that are (c, P)-sure on their non-empty shares is (c, m*P)-sure; a SymDigest of two (c, P)-sure digests answers all quantile queries at once within 6*e*min(#items <= x, #items >= x) ranks with probability at least 1 - 2*P. An RCSketch (even k, declared length) or RCSketch2 is (1, P)-sure with the P of C164 or C166, so the wrappers may be nested in any order and depth. The members of a ParallelDigest must count alike: with MultiDigests of one and of three exact digests the answer is wrong. Exact arithmetic.", "quantifier": "all nestings, histories of insertions, numbers of members, parameters, items, error levels, and all queries simultaneously; independent coins; exact arithmetic", "why_tests_cant": "Nesting depth and composition are unbounded; the guarantee is a probability over all coins of all sketches and over all queries at once.", "anchors": ["src/multi_digest.rs:est_quantile_at_value", "src/multi_digest.rs:count", "src/parallel_digest.rs:add_buffer", "src/parallel_digest.rs:est_quantile_at_value", "src/sym_digest.rs:est_quantile_at_value"]}
{"id": "C170", "title": "BufferedDigest keeps the relative accuracy of the sketch inside, for all queries at once", "statement": "A BufferedDigest of any capacity except 0 around an RCSketch (even k, declared length) or an RCSketch2, fed any insertions and then flushed (every query starts with that flush), surely has an empty buffer and counts every item once, and with the failure probability of the bare sketch (C164, C166), not more, it answers all est_quantile_at_value(x) at once within 3*e*#(items <= x) ranks. With the same probability est_value_at_quantile(q), for all q in [0,1] at once, returns an item v with (1-3e)*#(items < v) <= q*N <= (1+3e)*#(items <= v) (RCSketch2: q*N reduced by the factor 1-3e in the second inequality). The same holds around any digest whose guarantee depends only on the items and for which adding an empty buffer changes nothing (a ParallelDigest is not one: C52). Exact arithmetic.", "quantifier": "all capacities except 0, histories of insertions (single and batch), parameters, items, error levels, and all queries simultaneously; independent coins; exact arithmetic", "why_tests_cant": "Buffering regroups the insertions in a way that depends on the capacity and so changes which coins the sketch draws; the guarantee is a probability over all coins and all queries.", "anchors": ["src/buffered_digest.rs:add", "src/buffered_digest.rs:add_buffer", "src/buffered_digest.rs:flush", "src/buffered_digest.rs:est_quantile_at_value", "src/buffered_digest.rs:est_value_at_quantile", "src/buffered_digest.rs:count"]}
{"id": "C171", "title": "ParTDigest does not depend on unit and origin", "statement": "Replace every item x, and every argument of a quantile query, of a history of calls of a ParTDigest by a*x + b with a > 0 (all items finite and in range before and after). Then est_quantile_at_value(a*x + b) afterwards is est_quantile_at_value(x) of the original history, coin for coin and panic for panic. est_value_at_quantile(q) is shifted by b if a = 1, and is transformed to a*v + b for any a > 0 unless the target falls into the right half of the last centroid without being in the last unit of weight (there the code adds a number without unit to the maximum; a witness shows that the exception is needed). Exact arithmetic.", "quantifier": "all histories of insertions, explicit flushes and quantile queries; all thread counts, capacities, scale functions, compression factors; all a > 0, b; exact arithmetic", "why_tests_cant": "A relation between all pairs of executions on different data, including chunking, the digests of the chunks and the overwriting of the limits at each flush; tests compare single runs.", "anchors": ["src/t_digest/par_t_digest.rs:flush", "src/t_digest/par_t_digest.rs:add", "src/t_digest/par_t_digest.rs:add_buffer", "src/t_digest/par_t_digest.rs:est_quantile_at_value", "src/t_digest/par_t_digest.rs:est_value_at_quantile"]}
{"id": "C172", "title": "No nesting of digests depends on unit and origin in its quantile answers", "statement": "Take any nesting of BufferedDigest, SymDigest, MultiDigest (members of different types included) and ParallelDigest around TDigest, ParTDigest, RCSketch, RCSketch2 or LinearDigest. Replace every item x, and every argument of a quantile query, of a history by a*x + b with a > 0 (items finite and in range before and after). Then est_quantile_at_value(a*x + b) and count() afterwards are est_quantile_at_value(x) and count() of the original history, coin for coin and panic for panic. This does not extend to value queries: the search of a ParallelDigest stops relative to the size of the values, and finds the median of -1, 0, 1 up to 1/100000 but answers with the largest item when 10^7 is added to all of them. Exact arithmetic.", "quantifier": "all nestings, histories of insertions and quantile queries, parameters, scale functions, a > 0, b; exact arithmetic", "why_tests_cant": "A relation between all pairs of executions on different data, closed under arbitrary nesting.", "anchors": ["src/buffered_digest.rs:est_quantile_at_value", "src/sym_digest.rs:est_quantile_at_value", "src/multi_digest.rs:est_quantile_at_value", "src/parallel_digest.rs:est_quantile_at_value", "src/parallel_digest.rs:est_value_at_quantile", "src/t_digest/t_digest.rs:est_quantile_at_value", "src/t_digest/par_t_digest.rs:est_quantile_at_value", "src/rc_sketch/rc_sketch.rs:est_quantile_at_value", "src/rc_sketch/rc_sketch2.rs:est_quantile_at_value", "src/util/linear_digest.rs:est_quantile_at_value"]}
{"id": "C173", "title": "Value queries of nested digests around sketches move with unit and origin", "statement": "Take any nesting of BufferedDigest, SymDigest and MultiDigest (members of different types included) around RCSketch, RCSketch2 or LinearDigest. Replace every item x, and every argument of a quantile query, of a history by a*x + b with a > 0 (items finite and in range before and after); value queries of the history keep their arguments. Then est_value_at_quantile(q) afterwards is a*v + b, where v is the answer after the original history, and quantile queries and count() are unchanged, coin for coin and panic for panic. Exact arithmetic.", "quantifier": "all nestings, histories of insertions and queries of both kinds, parameters, a > 0, b, q; exact arithmetic", "why_tests_cant": "A relation between all pairs of executions on different data, closed under arbitrary nesting.", "anchors": ["src/buffered_digest.rs:est_value_at_quantile", "src/sym_digest.rs:est_value_at_quantile", "src/multi_digest.rs:est_value_at_quantile", "src/rc_sketch/rc_sketch.rs:est_value_at_quantile", "src/rc_sketch/rc_sketch2.rs:est_value_at_quantile", "src/util/linear_digest.rs:est_value_at_quantile"]}
{"id": "C174", "title": "Asking again: queries of a buffered TDigest or ParTDigest do not disturb each other", "statement": "A query of a BufferedDigest runs a merge pass of the TDigest inside even if nothing has arrived since the last one. In exact arithmetic such a pass changes nothing, provided no two centroids have the same mean: after any history of insertions add_buffer(&[]) leaves a TDigest exactly as it is, whatever its scale function and compression factor; and once a BufferedDigest around a TDigest has answered a question, any number of further questions leaves it as it is and the same question gets the same answer. The same holds for a ParTDigest without the proviso and with any rounding, since its flush does nothing when nothing is pending. For the BufferedDigest the proviso is needed, since the sort is unstable and a pass without new items may then merge further.", "quantifier": "all histories, scale functions, compression factors, capacities, sequences of queries, sort outcomes; exact arithmetic", "why_tests_cant": "A fixed-point property of the merge pass for every scale function and every reachable digest.", "anchors": ["src/t_digest/t_digest.rs:add_centroid_buffer", "src/buffered_digest.rs:flush", "src/buffered_digest.rs:est_quantile_at_value", "src/buffered_digest.rs:est_value_at_quantile"]}
{"id": "C175", "title": "Asking again, in nested digests: queries do not disturb each other", "statement": "The query methods take &mut self. For TDigest, ParTDigest, RCSketch and RCSketch2, for Box<dyn Digest> over them, for every MultiDigest and SymDigest built from these to any depth, and for BufferedDigests around RCSketch, RCSketch2 and MultiDigests and SymDigests of them: once a question has been answered, any number of further questions of either kind that are answered leaves the digest exactly as it is, and the first question is then answered, without a panic, with the same result. This holds in every state, for non-finite contents and arguments too. LinearDigest is not in the list, since its value query sorts the stored values in place.", "quantifier": "all states, nestings, sequences of queries, arguments, sort outcomes; rounded arithmetic included", "why_tests_cant": "A statement about every nesting of the generic types and every sequence of queries.", "anchors": ["src/multi_digest.rs:est_quantile_at_value", "src/multi_digest.rs:est_value_at_quantile", "src/sym_digest.rs:est_quantile_at_value", "src/sym_digest.rs:est_value_at_quantile", "src/rc_sketch/rc_sketch.rs:est_value_at_quantile"]}
