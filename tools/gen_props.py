import json
P=[]
def p(title,statement,quant,why,anchors):
    P.append(dict(id="C%02d"%(len(P)+1),title=title,statement=statement,quantifier=quant,why_tests_cant=why,anchors=anchors))
LD="src/util/linear_digest.rs"; RC="src/rc_sketch/rc_sketch.rs"; RC2="src/rc_sketch/rc_sketch2.rs"; KT="src/util/keyed_sum_tree.rs"
TD="src/t_digest/t_digest.rs"; PT="src/t_digest/par_t_digest.rs"; U="src/util/mod.rs"; SF="src/t_digest/scale_functions.rs"
BD="src/buffered_digest.rs"; PD="src/parallel_digest.rs"; SD="src/sym_digest.rs"; MD="src/multi_digest.rs"
p("LinearDigest value query is the true order statistic","After any history of adds, buffer adds and queries on a LinearDigest holding n>=1 non-NaN values, est_value_at_quantile(q) with 0<=q<=1 does not panic and returns the element of the sorted data at index min(round(q*n), n-1); the data is unchanged as a multiset.","all histories, all data, all q in [0,1]","infinitely many data sets and quantiles; sorting in place inside a query interacts with every later call",[LD+":est_value_at_quantile"])
p("LinearDigest quantile query is the mid-rank fraction, in [0,1] and monotone","est_quantile_at_value(v) equals (#values<v, plus half of #values==v when at least two are equal)/n, lies in [0,1], and v<=w implies answer(v)<=answer(w).","all non-empty data sets, all v,w","monotonicity relates all pairs of queries over all data",[LD+":est_quantile_at_value"])
p("LinearDigest answers depend only on the multiset of inputs","Two LinearDigest histories (any order, any split into add/add_buffer, any interleaved queries) that supply the same multiset of values give identical answers to both queries and the same count.","all pairs of histories with permuted inputs","order independence ranges over all permutations and all interleavings with queries (which reorder storage)",[LD])
p("weighted_average never leaves the interval of its two values","For any two non-NaN values and any weights whatever (negative, zero sum, infinite, NaN), under any floating point rounding, weighted_average(x1,w1,x2,w2) lies in [min(x1,x2), max(x1,x2)].","all values, all weights, all rounding functions","includes zero-sum and NaN weights and every rounding error",[U+":weighted_average"])
p("RCSketch count is exact","After any sequence of add, add_buffer, add_buffer_fast, add_buffer_custom (either compaction method) calls that return, with any random choices, count() equals the number of items supplied.","all histories, all coin flips","random compaction and unbounded histories",[RC+":add",RC+":add_buffer",RC+":add_buffer_custom"])
p("RCSketch buffers stay strictly below their capacity between calls","After every call that returns, every internal buffer of an RCSketch holds fewer than buffer_size items, so memory is at most buffer_size times the number of levels.","all histories, all coin flips","needs an invariant across recursive cascades of compactions",[RC+":insert_at_rc",RC+":insert_at_rc_batch"])
p("RCSketch never panics within its declared input length","A sketch created with new(n,k), k>=1, fed at most n < 2^32 non-NaN items in total (default and fast compaction mixed in any way, any coin flips; AverageNeighbour for finite items whose double does not overflow) accepts all of them without a panic: the compaction index never underflows, recursion ends. For even k the queries on the non-empty sketch never panic either.","all n,k, all histories within the bound, all coin flips","index arithmetic buffer_len-(trailing_ones+1)*k can underflow only at rare counter values; termination of the cascade",[RC+":get_compact_index",RC+":insert_at_rc_batch",RC+":calc_buffer_size"])
p("RCSketch conserves total weight","The total weight of the stored items (weight 2^level) always equals the number of items seen, hence est_quantile_at_value never exceeds 1 and equals 1 at or above the largest item.","all k, all histories, all coin flips","must hold for every compaction size parity and coin",[RC+":compact",RC+":est_quantile_at_value"])
p("RCSketch deterministic rank error bound","For every value x the estimated rank differs from the true number of inserted items <= x by at most sum over levels h of 2^h times the number of compactions performed at level h, whatever the coins; with AverageNeighbour for finite items whose double does not overflow.","all x, all histories, all coin flips, both compaction methods","worst case over all coin flips and inputs",[RC+":compact",RC+":interpolate_rank"])
p("RCSketch rank estimates are unbiased","With fair independent coins (default compaction method) the expected value of the estimated rank of x equals the true rank of x, for every x and every history within the declared input length: the weighted number of stored items <= x for all k, and the answer of interpolate_rank for even k.","all histories within input length, all x; expectation over all coin flips","expectation over exponentially many coin sequences",[RC+":compact",RC+":interpolate_rank"])
p("RCSketch ranks are exact at the low end","Within the declared input length, for every x whose true rank is at most buffer_size/2 the estimated rank is exactly the true rank, whatever the coins.","all histories within input length, all x of low rank, all coin flips","the relative-error guarantee concerns every history and every coin",[RC+":get_compact_index",RC+":get_compact_index_fast",RC+":interpolate_rank"])
p("RCSketch quantile estimates are monotone in the value","For x<=y, interpolate_rank(x)<=interpolate_rank(y) and est_quantile_at_value(x)<=est_quantile_at_value(y) on any non-empty sketch, under any monotone floating-point rounding.","all sketches, all x<=y, all monotone roundings","all pairs",[RC+":interpolate_rank",RC+":est_quantile_at_value"])
p("RCSketch value estimates are real inputs","With default compaction est_value_at_quantile returns one of the inserted items; with AverageNeighbour and finite items whose double does not overflow it lies between the smallest and largest inserted item.","all histories, all coins, all q","unbounded histories",[RC+":est_value_at_quantile",RC+":compact"])
p("RCSketch value estimates are monotone in the quantile","For q1<=q2 est_value_at_quantile(q1)<=est_value_at_quantile(q2) on every non-empty sketch.","all sketches, all q1<=q2, all monotone roundings","all pairs of quantiles",[RC+":est_value_at_quantile"])
p("RCSketch memory is logarithmic","For even k, within the declared input length, a sketch that has seen c>=1 items has at most log2(c)+1 levels, each below buffer_size items.","all histories within input length, all coins","asymptotic claim",[RC+":insert_at_rc_batch"])
p("RCSketch add_buffer is the same as adding one item at a time","Within the declared input length, add_buffer(items) has exactly the same distribution over resulting sketches as calling add for each item in order.","all sketches reachable within input length, all item slices","two different code paths (insert_at_rc, chunked insert_at_rc_batch) must agree for every state",[RC+":add",RC+":add_buffer",RC+":insert_at_rc",RC+":insert_at_rc_batch"])
p("RCSketch value and quantile queries are mutually consistent","est_value_at_quantile(q) is the least stored value v whose estimated rank exceeds q*count; when no stored value has that rank it is the largest stored value (at most 31 levels, and weights that the float type represents exactly).","all non-empty sketches, all q","relates two independent code paths (sorted scan and per-buffer counting) over all states",[RC+":est_value_at_quantile",RC+":interpolate_rank"])
p("RCSketch2 count and size bookkeeping are exact","After any sequence of calls that return, count() equals the number of items supplied and sketch_size equals the number of items actually stored.","all histories, all coins","several in-place += / -= updates spread over compress/compact_buffer",[RC2+":insert",RC2+":compress",RC2+":compact_buffer"])
p("RCSketch2 add never panics","While section sizes stay at least 1 and a doubling of the sections does not shrink a level's capacity (k>=4 in exact arithmetic, 4<=k<2^24 in the f32 arithmetic of the code), any sequence of add / add_buffer / add_buffer_fast calls with fewer than 2^32 non-NaN items never panics (no index underflow, no out-of-range split, the capacity assertion holds); with k>=32 (k>=33 in f32) queries on a non-empty sketch never panic either.","all histories, all coins","depends on relation between counters, trailing ones and number of sections",[RC2+":get_compact_index",RC2+":update_sections",RC2+":insert_batch"])
p("RCSketch2 never stores more than its capacity","After every insertion call that returns, the number of stored items is at most the sketch capacity (sum of the per-level capacities).","all histories, all coins, all section size roundings that do not shrink a level's capacity","invariant over all compaction cascades",[RC2+":get_sketch_capacity",RC2+":compress"])
p("RCSketch2 deterministic rank error bound","For every x the estimated rank differs from the true rank by at most sum over levels h of 2^h times the number of compactions performed at level h, whatever the coins; with AverageNeighbour for finite items whose double does not overflow.","all x, all histories, all coins, both methods","worst case over all coin flips",[RC2+":compact_buffer",RC2+":interpolate_rank"])
p("RCSketch2 rank estimates are unbiased","With fair coins, section sizes that keep insertions from panicking (k>=4 in exact arithmetic, 4<=k<2^24 in the f32 arithmetic of the code), default/fast compaction and fewer than 2^32 non-NaN items the expected estimated rank of every x equals its true rank.","all histories, all x; expectation over coins","expectation over exponentially many coin sequences",[RC2+":compact_buffer"])
p("RCSketch2 ranks are exact at the low end","For section sizes that keep insertions from panicking (k>=4 in exact arithmetic, 4<=k<2^24 in the f32 arithmetic of the code) and default/fast compaction, the estimated rank of every x whose true rank is at most P, half the initial capacity of level 0, is exact whenever the calls return.","all histories, all x of rank <= P, all coins","every history and coin",[RC2+":get_compact_index",RC2+":compact_buffer"])
p("RCSketch2 queries are monotone and return inserted items","est_quantile_at_value is monotone in the value, est_value_at_quantile is monotone in the quantile and (default compaction) returns an inserted item.","all sketches/histories, all pairs of queries","all pairs",[RC2+":est_quantile_at_value",RC2+":est_value_at_quantile"])
p("KeyedSumTree prefix sums are correct after insertions","After inserting any list of (key, weight) pairs with distinct keys in any order, less_than_sum(key) is the sum of the weights of keys strictly below key (None when empty); inserting a duplicate key panics.","all insertion sequences, all keys","all tree shapes",[KT+":insert",KT+":less_than_sum"])
p("KeyedSumTree contents are the inserted minus deleted pairs, in key order","After any sequence of inserts of fresh keys and deletes of present keys, sorted_vec_key returns exactly the remaining (key,weight) pairs in strictly increasing key order, and size() is their number.","all operation sequences","all tree shapes, including two-child deletions",[KT+":delete",KT+":rightmost_child",KT+":sorted_vec_key",KT+":size"])
p("KeyedSumTree prefix sums stay correct after deletions","less_than_sum(key) equals the sum of remaining weights with key strictly below, also after deletions.","all operation sequences","only particular tree shapes expose a stale subtree sum",[KT+":delete",KT+":less_than_sum"])
p("KeyedSumTree closest_keys finds the nearest key","On a non-empty tree closest_keys(t) is non-empty, every returned pair is stored in the tree, every key at minimal distance from t is returned, and nothing further than 0.001 beyond the minimal distance is.","all reachable trees, all targets","all tree shapes",[KT+":closest_keys"])
p("TDigest weight and count are exact","After any history of add / add_buffer / add_centroid_buffer calls the total weight equals the total supplied weight and count() equals the number of items for unit-weight histories, for every scale function.","all histories, all scale functions, exact arithmetic","arbitrary user-supplied scale functions and histories",[TD+":add_centroid_buffer",TD+":count"])
p("TDigest tracks the exact minimum and maximum","After any history of at least one item, min and max are exactly the smallest and largest item ever supplied.","all histories, all scale functions, any rounding","all histories",[TD+":add_centroid_buffer"])
p("TDigest centroids are sorted and within the data range","After any history centroid means are in non-decreasing order, weights are positive and all means lie in [min,max].","all histories, all scale functions, exact arithmetic","all merge decisions",[TD+":add_centroid_buffer"])
p("TDigest conserves the sum of the data","The sum of mean*weight over centroids equals the sum of all supplied items.","all histories, all scale functions, exact arithmetic","all merge decisions",[TD+":add_centroid_buffer"])
p("TDigest merging only joins neighbours","Each merge pass replaces consecutive runs of the sorted centroids by their weighted mean: the new centroids are the weighted means of a partition of the sorted input into consecutive non-empty runs; a run has more than one member only when its weight is within the scale-function limit.","all inputs, all scale functions, exact arithmetic","all run boundaries",[TD+":add_centroid_buffer"])
p("TDigest quantile estimates are probabilities and never panic","On a non-empty digest whose centroids have weight at least 1 est_quantile_at_value never panics for a finite value, lies in [0,1], is 0 below min and 1 above max; on the empty digest it is NaN.","all reachable digests, all finite values","panic branch 'fell through loop' must be unreachable",[TD+":est_quantile_at_value"])
p("TDigest quantile estimates are monotone","For v<=w, est_quantile_at_value(v)<=est_quantile_at_value(w).","all reachable digests, all pairs","piecewise formula with many boundary cases",[TD+":est_quantile_at_value"])
p("TDigest value estimates stay within the data range","est_value_at_quantile(q), 0<=q<=1, is a number in [min,max] for every non-empty digest.","all reachable digests, all q","interpolation formulas at the tails",[TD+":est_value_at_quantile"])
p("TDigest extreme quantiles are exact","est_value_at_quantile(0)=min and est_value_at_quantile(1)=max on every non-empty unit-weight digest.","all reachable digests","all histories",[TD+":est_value_at_quantile"])
p("TDigest value query never panics on a non-empty digest","est_value_at_quantile(q) returns (no out-of-bounds centroid index) for every finite q and every non-empty digest whose centroids have weight at least 1.","all reachable digests, all finite q","loop runs over total_weight rather than the number of centroids",[TD+":est_value_at_quantile"])
p("TDigest is exact before compression","While no two items have been merged, a digest of n>=2 items gives the same est_quantile_at_value as the exact LinearDigest for every value.","all data sets of size >= 2, all values","ties, end points and gaps",[TD+":est_quantile_at_value",LD+":est_quantile_at_value"])
p("TDigest size is bounded by the compression factor","After any add_buffer the number of centroids is at most compress_factor + 1 when the uniform scale function k0 is used, independent of the number of items.","all data, all compression factors > 0","independent of input size",[TD+":add_centroid_buffer",SF+":k0"])
p("TDigest add_cluster conserves weight, sum and limits","add_cluster adds exactly the supplied weight and mass to the digest, updates min/max to cover the new items, and leaves at most max(limit, merged size) centroids.","all digests (sorted or not), all clusters, all scale functions","periodic re-merging and branchy insertion",[TD+":add_cluster",TD+":update_limits"])
p("TDigest find_closest_centroids returns a valid range containing a nearest centroid","For a non-empty digest with sorted means, the returned range is non-empty, within bounds, and contains a centroid at minimal distance from the target; it is None exactly for the empty digest.","all sorted digests, all targets","binary search plus range adjustment boundary cases",[TD+":find_closest_centroids"])
p("TDigest add_cluster_tree conserves weight and sum","If add_cluster_tree returns, the total weight and mass have grown by exactly those of the clusters, the means are strictly increasing, and with k0 and growth limit g at most max(g*d, d+1) centroids are left; duplicate means make it panic rather than lose weight.","all digests, all clusters, all shuffles","random shuffles and tree shapes",[TD+":add_cluster_tree",KT])
p("TDigest value estimates are monotone in the quantile","For q1<=q2, est_value_at_quantile(q1)<=est_value_at_quantile(q2).","all reachable digests, all pairs q1<=q2","piecewise formula",[TD+":est_value_at_quantile"])
p("ParTDigest loses no items across flushes","After any history of adds, buffer adds, flushes and queries, count() equals the number of items supplied; queries flush everything first.","all histories, all thread/capacity parameters >= 1","buffering boundaries",[PT+":flush",PT+":count"])
p("ParTDigest tracks the exact minimum and maximum across flushes","After a flush the digest's min and max are the smallest and largest items ever supplied.","all histories with several flushes","needs at least two flushes with particular data",[PT+":flush"])
p("BufferedDigest is transparent","For any inner digest, a BufferedDigest delivers to it exactly the supplied items in order, each once, before answering any query, and count() equals inner count plus pending items; over LinearDigest it answers exactly like LinearDigest.","all inner digests, all histories, all capacities >= 1","generic in the inner digest, all interleavings",[BD])
p("BufferedDigest buffer is bounded","After every call the pending buffer holds at most capacity items.","all histories, capacity >= 1","all histories",[BD+":add",BD+":add_buffer"])
p("ParallelDigest distributes every item exactly once","add_buffer of a non-empty slice to a ParallelDigest with d>=1 sub-digests delivers consecutive chunks, whose concatenation is the slice, to distinct sub-digests; count() grows by exactly the slice length. After any history the stored minimum and maximum are those of the items.","all slice lengths, all d >= 1","ceil division boundary",[PD+":add_buffer",PD+":count"])
p("ParallelDigest quantile estimate is the count-weighted mean","est_quantile_at_value is the average of the sub-digest estimates weighted by their counts, hence in [0,1] and monotone if the sub-digests are.","all sub-digests","generic in the sub-digest",[PD+":est_quantile_at_value"])
p("ParallelDigest value search terminates inside [min,max]","est_value_at_quantile performs at most 20 bisection steps and returns a value in [min,max], i.e. between the smallest and the largest item; if the returned value is not the final upper end then its estimated quantile is at least the target.","all sub-digest behaviours, all targets, all data; exact arithmetic except for the range of the value","termination of a numeric loop",[PD+":est_value_at_quantile"])
p("ParallelDigest accepts empty buffers","add_buffer(&[]) is a no-op that does not panic.","all digests","boundary input",[PD+":add_buffer"])
p("SymDigest is mirror symmetric","Feeding the negated data to a SymDigest built from the same digests swapped gives est_value_at_quantile(1-q) = -est_value_at_quantile(q), for every underlying deterministic digest.","all underlying digests, all histories, all q","generic in the underlying digest",[SD])
p("SymDigest answers with one of its two sides or their average","est_value/est_quantile return the low side below the median, the high side above, their average at the median; the answer always lies between the two sides' estimates; count() is the number of items seen.","all underlying digests, all histories","generic",[SD])
p("MultiDigest estimates lie between its members' estimates","Both estimates are the mean of the members' estimates and lie between the smallest and largest of them (NaN when there are no members).","all member digests","generic",[MD])
p("MultiDigest count is the number of items seen","count() equals the number of items supplied.","all member lists, all histories","depends on the number of members",[MD+":count"])
p("Scale functions and their inverses are inverse to each other","inv_k(k(q)) = q for each pair k0,k1,k2,k2_asym,k2n,k3 on the quantile domain, for every compression factor and count for which the normaliser is positive.","all q in the open unit interval, all compression factors, all counts","real-valued identity",[SF])
p("Scale functions are increasing","Each scale function is strictly increasing in the quantile on (0,1).","all q1<q2, all parameters","real-valued inequality",[SF])
p("opt_accuracy_parameter terminates with a bracketed parameter","With epsilon>0 and max_param>0 the search terminates; the result lies in (0,max_param], is max_param or a parameter that passed, and is within epsilon of a parameter that failed (or of 0).","all pass/fail behaviours of the tested digest","arbitrary, non-monotone pass functions",[U+":opt_accuracy_parameter"])
p("NaN is rejected, not silently mis-ordered","Any compaction or sorted query of an RCSketch, RCSketch2 or LinearDigest, and any insertion into a TDigest, involving a NaN together with another value panics instead of returning an arbitrarily ordered result.","all states containing NaN","all positions of NaN",[RC+":compact",RC+":sorted_weighted_values",LD+":est_value_at_quantile"])
p("RCSketch mean squared rank error","With fair coins, even k, default/fast compaction and N items within the declared input length, the mean squared error of the estimated rank of any x is at most 2*N^2/(k*buffer_size).","all histories within input length, all x, all even k","expectation over all coin sequences",[RC+":compact",RC+":interpolate_rank"])
p("RCSketch rank error tail probability","Under the same conditions the probability that the estimated rank of x is off by at least t is at most 2*N^2/(k*buffer_size*t^2).","all histories within input length, all x, all t > 0","rare events over all coin sequences",[RC+":compact",RC+":interpolate_rank"])
p("RCSketch a-priori rank error","For even k, whatever the coins and however many items are inserted (default/fast compaction), the estimated rank is off by at most N*(log2(N/buffer_size)+1)/k.","all histories, all coins, all x, all even k","worst case over coins and inputs",[RC+":compact",RC+":interpolate_rank"])
p("RCSketch2 conserves total weight","The total weight of the stored items (weight 2^level) equals the number of items seen, hence est_quantile_at_value never exceeds 1.","all k, all histories, all coin flips","depends on the parity of every compaction",[RC2+":compact_buffer",RC2+":est_quantile_at_value"])
p("RCSketch2 add_buffer is the same as adding one item at a time","add_buffer(items) after any history has exactly the same distribution over resulting sketches as calling add for each item in order.","all reachable sketches, all item slices","two code paths must agree for every state",[RC2+":add",RC2+":add_buffer",RC2+":insert_batch"])
p("RCSketch2 rank variance is bounded by its compactions","With fair coins, section sizes that keep insertions from panicking (k>=4 in exact arithmetic, 4<=k<2^24 in the f32 arithmetic of the code), default/fast compaction and fewer than 2^32 non-NaN items the mean squared error of the rank of any x in the stored weighted items (the answer of interpolate_rank, for section sizes of at least 2) is at most the expected sum over levels h of 4^h times the number of compactions of level h.","all histories, all x; expectation over coins","expectation over exponentially many coin sequences",[RC2+":compact_buffer",RC2+":interpolate_rank"])
p("find_closest_centroids returns exactly the nearest centroids","The range returned for a target contains exactly the centroids at minimal distance from it.","all sorted digests, all targets","ties and targets between two centroids",[TD+":find_closest_centroids"])
p("Adding centroids conserves weight and mass","The sum of two centroids of positive weight has the sum of the weights, the sum of the masses, and a mean between the two; addition is commutative.","all pairs of centroids, exact arithmetic","real-valued identity",["src/t_digest/centroid.rs:add"])
p("Clustering only merges within the size limit","When add_cluster or add_cluster_tree (scale function k0, compression factor d) merges a cluster into an existing centroid, the merged weight w satisfies w*d < 2*(n+w), n being the weight in the digest before that cluster; otherwise the cluster becomes a centroid of its own.","all digests, all clusters, all d > 0","needs clusters of extreme weight or mean",[TD+":add_cluster",TD+":add_cluster_tree",TD+":k_size"])
p("ParTDigest stays within the data","After any history followed by a flush the centroids are sorted, have weight at least 1, lie between the recorded min and max, and these lie between the smallest and largest item; quantile estimates lie in [0,1], are 0 below all items and 1 above all.","all histories, all thread/capacity parameters >= 1, all values","the limits are overwritten at each flush",[PT+":flush",PT+":est_quantile_at_value"])
p("ParTDigest buffer is bounded","After every call the pending buffer holds at most capacity items.","all histories","all histories",[PT+":add",PT+":add_buffer"])
p("BufferedDigest delivers batches in order","The wrapped digest receives exactly the supplied items, in order, cut into batches; between queries every batch it receives has more than capacity and at most 2*capacity items.","all histories, all capacities, all wrapped digests","all histories",[BD+":add",BD+":add_buffer"])
p("MultiDigest averaging divides the variance","If the answers of m independent members to a query after a history are unbiased for mu with mean squared error at most v, the answer of the MultiDigest is unbiased for mu with mean squared error at most v/m.","all randomised member digests, all histories","expectation over coins, generic in the members",[MD+":est_quantile_at_value",MD+":est_value_at_quantile"])
p("MultiDigest of RCSketches","m RCSketches new(n, k), k even, in a MultiDigest: after any insertions of 1 to n items est_quantile_at_value(x) is unbiased for the fraction of items at most x, with mean squared error at most 2/(k*buffer_size*m).","all m, n, even k, all insertion histories, all x","expectation over exponentially many coin sequences",[MD,RC])
p("SymDigest of exact digests is exact","A SymDigest of two LinearDigests answers est_quantile_at_value(v) with the mid-rank fraction unless v occurs exactly once, and then with a number between the fraction of items below v and that of items not above v.","all histories, all v","all data",[SD+":est_quantile_at_value"])
p("ParallelDigest of exact digests","When no sub-digest is empty, a ParallelDigest of LinearDigests estimates the quantile of v between the fraction of items below v and that fraction plus half of the items equal to v, whatever the history and the distribution over the sub-digests; none is empty after a slice whose length is a positive multiple of the number of sub-digests.","all histories, all v, any number of sub-digests","all ways of distributing the data",[PD+":est_quantile_at_value",PD+":add_buffer"])
p("TDigest size with k2 and k2_asym","After any history of items, a digest using k2 (compression factor d at most 10^6) or k2_asym (d at most 250000) has at most d + 3 centroids, whatever the number of items.","all histories, all d in range","independent of input size; logarithmic formulas",[TD+":add_centroid_buffer",SF+":k2",SF+":k2_asym"])
p("TDigest size with k3","After any history of items, a digest using k3 with compression factor d at most 10^5 has at most d + 3 centroids, whatever the number of items.","all histories, all d in range","independent of input size",[TD+":add_centroid_buffer",SF+":k3"])
p("TDigest size with k1","After any history of items, the number of centroids of a digest using k1 is bounded in terms of the compression factor alone.","all histories, all compression factors >= 2","independent of input size",[TD+":add_centroid_buffer",SF+":k1",SF+":inv_k1"])
p("TDigest size with k2n","With k2n and compression factor d, after any history with total weight W the digest has at most d/10*log10(W)^2 + 3 centroids, as long as d/10*log10(W)^2 is at most 10^6.","all histories, all d","all input sizes",[TD+":add_centroid_buffer",SF+":k2n"])
p("sample_digest_accuracy samples","sample_digest_accuracy returns exactly test_count errors, each computed from the digest and the exact digest filled with the same generated data set; it does not panic unless a closure does; for an exact digest every error is error(x, x).","all closures, all test counts","generic in the closures",[U+":sample_digest_accuracy"])
p("Deterministic data generators","gen_asc_vec(n) and gen_asc_centroid_vec(n) produce 0..n-1 (nothing for negative n); gen_growing_blocks_vec(n) produces n values starting at 1 or 2, each equal to its predecessor or one more, whatever is drawn.","all sizes, all draws","all sizes and random draws",[U+":gen_asc_vec",U+":gen_growing_blocks_vec"])
p("TDigest quantile error after one batch","After one add_buffer call on a new digest, est_quantile_at_value(x) times n differs from the rank of x by at most one and a half times the heaviest centroid; with k0 and compression factor d by at most max(3/2, 3n/d).","all batches, all x, all scale functions, all d > 0","every batch and every query point; the error is a worst case",[TD+":add_buffer",TD+":est_quantile_at_value"])
p("TDigest value error after one batch","After one add_buffer call on a new digest, the rank of est_value_at_quantile(q) differs from q*n by at most one and a half times the heaviest centroid.","all batches, all q in [0,1], all scale functions","every batch and every q; the error is a worst case",[TD+":add_buffer",TD+":est_value_at_quantile"])
p("TDigest accuracy does not depend on how the data is cut into batches","The accuracy of a k0 digest after one batch (rank error at most max(3/2, 3n/d)) holds after any history of add and add_buffer calls.","all histories, all x","adversarial insertion orders",[TD+":add",TD+":add_buffer",TD+":est_quantile_at_value"])
p("TDigest relative accuracy towards the ends","After one batch of n items into a digest with k2, k3 or k2n the rank error of quantile and value queries is at most 3/2*max(1, r(r-1)*t), t the distance in items to the nearer end of the data and r a factor depending on the compression factor and log(n) only.","all batches, all x and q","every batch; logarithmic scale functions",[TD+":add_buffer",SF+":k2",SF+":k3",SF+":k2n"])
p("TDigest is safe in floating point","With f64 arithmetic (every operation rounding), inserting up to 2^52 finite items of magnitude at most 2^970 in any way never panics; count() is exact, the centroid means are finite and stay within that magnitude, and min and max enclose every item.","all histories, all scale functions, all sorting algorithms; any monotone rounding with exact small integers and enough range","rounding errors over arbitrarily long histories",[TD+":add_centroid_buffer",TD+":count"])
p("TDigest queries are safe in floating point","After such a history of at least one item, in the same arithmetic, est_quantile_at_value(v) is a number in [0,1] for every v but NaN, 0 below min and 1 above max; est_value_at_quantile(q) returns for every q but NaN (for which it panics), with min for 0 and max for 1.","all histories, all scale functions, all v and q including infinities; any monotone rounding with exact small integers and enough range","rounding may push an intermediate result over a case boundary",[TD+":est_quantile_at_value",TD+":est_value_at_quantile"])
p("ParallelDigest answers do not depend on the thread schedule","However rayon cuts the list of sub-digests and combines the partial sums, est_quantile_at_value and est_value_at_quantile give the same answers in exact arithmetic; with f64 arithmetic, sub-digests that answer in [0,1] and at most 2^52 items, every schedule answers in [0,1] and within (3m+2)*2^-52 of the count-weighted mean of the m sub-digest estimates.","all schedules, all sub-digests, all queries; any monotone rounding with exact small integers and a relative error bound","schedules cannot be enumerated or forced by a test",[PD+":est_quantile_at_value",PD+":est_value_at_quantile"])
p("ParallelDigest value search in floating point","With f64 arithmetic, sub-digests whose answers are numbers, and items of magnitude at most 2^1021 that are all equal or not all within 2^-1045 of 0, est_value_at_quantile ends within 21 rounds for every schedule, with a value between the smallest and the largest item and in a bracket of relative width at most 1.01e-6 where the estimated quantile crosses the target.","all data in range, all targets, all schedules, all sub-digests","rounding in the bisection; termination of a numeric loop",[PD+":est_value_at_quantile"])
p("MultiDigest averages in floating point","With f64 arithmetic, m members whose answers are surely numbers of magnitude at most M, m <= 2^52 and m*M at most 2^1021: both estimates are within 2^-52*(m+1)*M (plus an absolute error of at most 2^-1073) of the mean of the members' answers; quantile estimates stay in [0,1] if those of the members do.","all member digests, all queries; any monotone rounding with a relative error bound","rounding errors over any number of members",[MD+":est_quantile_at_value",MD+":est_value_at_quantile"])
p("RCSketch accuracy is relative to the rank","With fair coins, even k, default compaction, no fast insertions and N items within the declared input length, the mean squared error of interpolate_rank(x) is at most 2*(R/k)^2 (and at most 4*(log2(N/buffer_size)+1)*R^2/(k*buffer_size)), R the number of items at most x, whatever N; the chance of an error above e*R is at most 2/(k*e)^2. With fast insertions mixed in, the mean squared error is at most 2*R^2/k. A MultiDigest of m such sketches divides the mean squared error by m.","all histories within input length, all x, all even k, all e > 0","expectation over exponentially many coin sequences; the guarantee is for low ranks in arbitrarily long streams",[RC+":get_compact_index",RC+":compact",RC+":interpolate_rank"])
p("owned_size counts the bytes occupied and owned","owned_size() of every digest is the number of bytes it occupies and owns: its own size plus, for each vector in it, capacity times the element size and what the elements own.","all states of all digest types, all vector capacities, all element sizes, any nesting of the wrappers","no test calls owned_size; capacities are chosen by the allocator",["src/traits.rs:OwnedSize",TD+":owned_size",RC+":owned_size",BD+":owned_size",PD+":owned_size",SD+":owned_size"])
p("RCSketch value queries are accurate in rank","Even k, default compaction, N items within the declared input length, q in [0,1]: whatever the coins at most q*N + E items lie below est_value_at_quantile(q) and at least q*N - E are not above it, E = N*(log2(N/buffer_size)+1)/k; with E = e*N this fails with probability at most 4/(k*buffer_size*e^2); without fast insertions and with E = e*q*N, e <= 1, with probability at most 10/(k*e)^2 (q*N as computed).","all histories within input length, all q in [0,1], all even k, all e; any arithmetic that counts up to N exactly","the answer is random and the guarantee is a probability over exponentially many coin sequences",[RC+":est_value_at_quantile",RC+":compact"])
p("SymDigest of RCSketches is accurate at both ends","A SymDigest of two RCSketches new(n, k), k even, with N items, 1 <= N <= n: est_quantile_at_value(x) is surely within N*(log2(N/buffer_size)+1)/k ranks; where the lower (upper) side is smaller by more than twice that, its mean squared error is at most 2*(p/k)^2, p the fraction of items <= x (>= x). est_value_at_quantile(q), q != 1/2, is off by more than e*min(q,1-q)*N ranks with probability at most 10/(k*e)^2, 0 < e <= 1.","all insertion histories through the trait, all x, all q, all even k","joint distribution of two randomised sketches; the choice between them depends on both",[SD+":est_quantile_at_value",SD+":est_value_at_quantile",RC+":est_value_at_quantile"])
p("ParTDigest is safe in floating point","With f64 arithmetic (every operation rounding), supplying up to 2^52 finite items of magnitude at most 2^970 to a ParTDigest in any mix of insertions and queries never panics, for any positive number of threads and any capacity; count() is exact; after the first item est_quantile_at_value(v) is a number in [0,1] and est_value_at_quantile(q) returns, for every v and q but NaN; a flush keeps the exact weight, means and limits within that magnitude, and limits that enclose the flushed items and the earlier centroids.","all histories of up to 2^52 items, all thread counts, capacities and scale functions","rounding errors accumulate over arbitrarily long histories; the partition into chunks",[PT+":flush",PT+":add",PT+":add_buffer",PT+":est_quantile_at_value",PT+":est_value_at_quantile"])
p("SymDigest in floating point","With f64 arithmetic: if the sides answer a and b in [0,1], est_quantile_at_value returns a number in [0,1] that lies between a and the rounded 1-b, and is a, the rounded 1-b, or one half; est_value_at_quantile(q) is the low side's answer below one half and the negated high side's answer above it; a SymDigest of TDigests never panics, counts exactly and answers with probabilities for up to 2^52 items of magnitude at most 2^970; for RCSketches of even k the estimate is within the a-priori error plus 2^-51, and value queries have the accuracy of two-sided sketches with the target rank rounded.","all sub-digests, all values and quantiles; all insertion histories for the concrete sub-digests","rounding of 1-b and of the average could make the choice wrong for some pair of answers",[SD+":est_quantile_at_value",SD+":est_value_at_quantile"])
p("RCSketch2 is accurate","With k at least 264 (below 2^24) and default/fast compaction, after any insertions of N < 2^32 non-NaN items the estimated rank of every x is surely within 180*N/k of the true rank; its mean squared error is at most 3*(N/k)^2, and the chance of an error of e*N or more at most 3/(k*e)^2. In terms of the smallest section size w and the number M of levels: N*((1+1/w)^M - 1) surely.","all histories, all x; all coins, resp. expectation over coins","worst case and expectation over all coin sequences and compaction cascades",[RC2+":compress",RC2+":compact_buffer",RC2+":interpolate_rank"])
p("RCSketch2 value queries are accurate in rank","With default/fast compaction, q in [0,1] and N < 2^32 items: whatever the coins at most q*N + E items lie below est_value_at_quantile(q) and at least q*N - 2E are not above it, E = N*((1+1/w)^M - 1), w the smallest section size, M the number of levels; with E = e*N this fails with probability at most 27/(k*e)^2 for k at least 264 (below 2^24).","all histories, all q; all coins, resp. probability over coins","worst case and probability over all coin sequences",[RC2+":est_value_at_quantile",RC2+":compress",RC2+":compact_buffer"])
p("RCSketch2 accuracy is relative to the rank","With fair coins, k at least 264 (below 2^24), default/fast compaction and N < 2^32 non-NaN items, the mean squared error of interpolate_rank(x) is at most 4*R^2/k, R the number of items at most x, so the chance of an error of e*R or more is at most 4/(k*e^2); for q in [0,1] and 0 < e <= 1, except with probability at most 48/(k*e^2), at most (1+e)*q*N items lie below est_value_at_quantile(q) and at least (1-e)*q*N are not above it.","all histories, all x, all q; expectation and probability over coins","expectation over exponentially many coin sequences; all histories",[RC2+":compact_buffer",RC2+":get_compact_index",RC2+":get_compact_index_fast",RC2+":interpolate_rank",RC2+":est_value_at_quantile"])
p("add_cluster merges exactly by the k-size rule","weight_left is the total weight of the centroids with a mean strictly below the target's. add_cluster, with any scale function k and room under the growth limit, merges a cluster into a centroid only if k grows by less than 1 over the quantile interval of the merged centroid, that interval starting at the weight strictly below the merged mean divided by the total weight plus the merged weight; with strictly increasing means the centroid has the least mean*weight among the nearest ones the rule allows, and the cluster becomes a centroid of its own, at its sorted place, only if the rule allows no nearest centroid.","all digests, all clusters, all scale functions; exact arithmetic (weight_left also in floating point)","the decision depends on all centroids and on an arbitrary scale function",[TD+":add_cluster",TD+":weight_left",TD+":k_size",TD+":k_size_from_weights",TD+":find_closest_centroids"])
p("ParallelDigest adds up independent estimators","A ParallelDigest of randomised digests, after insertions of non-empty slices of non-NaN items: if sub-digest i, after the share of the items it gets, counts n_i items and answers est_quantile_at_value(x) without bias for m_i with mean squared error at most v_i, then no call panics, the answer is unbiased for sum(n_i*m_i)/N with mean squared error at most sum(n_i^2*v_i)/N^2, and count() is N = sum(n_i). With RCSketches (even k) or RCSketch2s (k from 264 on) that each get an item the answer is therefore unbiased for R/N, R the number of items at most x, with mean squared error at most 2*(R/(k*N))^2 or 4*R^2/(k*N^2), the same as for one sketch holding all items.","all sub-digests, all insertion histories, all x; expectation over coins","joint distribution of several randomised digests fed by different parts of the data",[PD+":add_buffer",PD+":est_quantile_at_value",PD+":count",RC2+":est_quantile_at_value"])
p("MultiDigest of independent estimators, nested wrappers","If after a history every one of the m members of a MultiDigest counts n items and answers est_quantile_at_value(x) without bias for p with mean squared error at most v, then the history and the query never panic, the MultiDigest counts m*n and answers without bias for p with mean squared error at most v/m. This composes: m RCSketch2s in a MultiDigest have mean squared error at most 4*R^2/(k*N^2*m), and a ParallelDigest of MultiDigests of j RCSketches each has at most 2*(R/(k*N))^2/j while counting each item j times.","all members, all histories, all x; expectation over coins","joint distribution of several randomised digests; nesting of wrappers",[MD+":est_quantile_at_value",MD+":count",PD+":est_quantile_at_value"])
p("add_cluster and add_cluster_tree are safe in floating point","With f64 arithmetic (every operation rounding), supplying clusters of integer weight, at most 2^52 in total, and of means of magnitude at most 2^970 in any mix of add, add_buffer, add_centroid_buffer and add_cluster (growth_limit times compression factor between 0 and 2^52) never panics; total_weight() is exact, every centroid has an integer weight and a mean within that magnitude, min and max enclose everything supplied; after the first item est_quantile_at_value(v) is a number in [0,1], est_value_at_quantile(q) returns, for every v and q but NaN, and the extreme quantiles are min and max. The same holds whenever a history with add_cluster_tree returns, which leaves strictly increasing means.","all histories, all scale functions, all growth limits","rounding errors accumulate over arbitrarily long histories; merges depend on arbitrary scale functions",[TD+":add_cluster",TD+":add_cluster_tree",TD+":update_limits",TD+":est_quantile_at_value",TD+":est_value_at_quantile"])
p("KeyedSumTree in floating point","With f64 arithmetic (every operation rounding): after inserting fresh keys with integer weights, at most 2^52 in total, and deleting only the currently largest key, less_than_sum(key) is exactly the sum of the weights of the stored keys strictly below key (None when empty). With keys and target of magnitude at most 2^1022, closest_keys on a non-empty reachable tree is non-empty, returns stored pairs only, and returns every key at exactly minimal distance. Beyond these bounds both fail: a weight of 1 next to 2^53 is lost, an overflowing distance makes closest_keys empty.","all such operation sequences, all keys, all targets; any monotone rounding that represents the counts (and is symmetric, for closest_keys)","all tree shapes; rounding in the incremental sums",[KT+":insert",KT+":delete",KT+":less_than_sum",KT+":closest_keys"])
p("ParTDigest with explicit flushes","With explicit flush() calls anywhere in a history of insertions and queries of a ParTDigest nothing panics, count() is the number of items supplied, total_weight() is that number less the pending items (at most the buffer capacity), and right after a flush total_weight() is the number of items supplied; in exact arithmetic, and in f64 for up to 2^52 items of magnitude at most 2^970.","all call histories, all positive numbers of threads, all capacities, all scale functions","all interleavings of flushes, queries and insertions of any size",[PT+":flush",PT+":total_weight",PT+":count"])
p("Buffering an RCSketch or RCSketch2 changes nothing","The answers of an RCSketch (within its declared input length) or RCSketch2 depend only on the items supplied before each query and on the coins, not on how the items are cut into add and add_buffer calls. A BufferedDigest of any non-zero capacity around one gives, coin for coin, the same answers, and after a flush holds the same sketch, as using the sketch directly.","all histories, all capacities, all coins; RCSketch: k >= 1, input length below 2^32, non-NaN items; RCSketch2: 4 <= k < 2^24","all histories, capacities and coin sequences; equality of distributions, not of sample answers",[BD+":flush",BD+":add_buffer",RC+":add_buffer",RC2+":add_buffer"])
p("TDigest accuracy after any number of batches","After any history of B calls of add, add_buffer and add_centroid_buffer on a new digest, with any scale function, est_quantile_at_value(x) times the total weight is within max(1, M/2) + B*M of the weight supplied below x and up to x, M the weight of the heaviest centroid in the end; with k0 and compression factor d, for items in B batches, within max(1, n/d) + (2/d)*(n_1+...+n_B) ranks, n_j the number of items after batch j, hence within max(1, n/d) + 2*B*n/d. The same bounds hold for est_value_at_quantile(q), q in [0,1] and not right of the middle of the last centroid.","all histories, all x and q, all scale functions, all d > 0","every cut of every data set into batches in every order; the error is a worst case",[TD+":add_centroid_buffer",TD+":est_quantile_at_value",TD+":est_value_at_quantile"])
p("ParTDigest accuracy with k0","A ParTDigest with scale function k0 and compression factor d, after any history of insertions, queries and flushes that supplied n items, c of the calls being queries or flushes: est_quantile_at_value(x) times n is within max(1, n/d) + (2n/d)*(2 + c + n/(capacity+1)) of the rank of x, for any positive number of threads; the same for est_value_at_quantile(q), q in [0,1] and not right of the middle of the last centroid.","all call histories, all thread counts and capacities, all x and q, all d > 0","all interleavings of insertions, queries and flushes; the error is a worst case over data and cuts into chunks",[PT+":flush",PT+":est_quantile_at_value",PT+":est_value_at_quantile"])
p("Calls a BufferedDigest makes, and the accuracy of a buffered TDigest","A BufferedDigest of capacity c >= 1, whatever its inner digest, inserts into it at most q + n/(c+1) times in a history with q queries that delivers n items, only by add_buffer. Hence a TDigest with k0 and compression factor d in a BufferedDigest answers est_quantile_at_value(x), after any history of q queries and insertions of n items, within max(1, n/d) + (2n/d)*(1 + q + n/(c+1)) ranks; the same for est_value_at_quantile(p), p in [0,1] and not right of the middle of the last centroid. Used directly with I insertion calls the bound is max(1, n/d) + 2*n*I/d.","all histories, all capacities of at least 1, all x and p, all d > 0; the number of calls for every inner digest","amortised bound over all histories and inner digests; worst case error",[BD+":flush",BD+":add_buffer",BD+":est_quantile_at_value",TD+":add_buffer"])
p("When add_cluster_tree panics","On a digest of finite centroids, add_cluster_tree of finite clusters returns, as add_cluster does. (False: with k0 and compression factor d, if all means are at least M and M*d is no less than twice the total weight, and the growth limit leaves room, it returns exactly when all means, old and new, are different, then keeping every cluster as it is, and otherwise panics; so adding 100 twice panics. With distinct means closer than 1/1000 a merge may land on another key and panic, depending on the shuffle. It does return for one cluster with a mean that is not yet present when the means of the digest are at least 1/1000 apart, for all scale functions.)","all histories, all clusters, all shuffles; the exact criterion for k0","a panic depends on all centroids, the tree shape and the shuffle",[TD+":add_cluster_tree",KT+":insert",KT+":closest_keys"])
p("Sketches only compare items","Let f preserve the order of all items and of the query value (NaN going to NaN). Replacing every item by its image under f leaves RCSketch's and RCSketch2's interpolate_rank(f(x)) and est_quantile_at_value(f(x)) equal to the former answers at x, coin for coin and panic for panic, and maps the answer of est_value_at_quantile by f; likewise for LinearDigest. This holds for every mix of add, add_buffer, add_buffer_fast and add_buffer_custom with the default compaction, and fails with average_neighbour compaction.","all order-preserving maps, all histories, all sizes, all coins, all queries, all section sizes","quantifies over pairs of streams, all monotone maps and all coin sequences",[RC+":interpolate_rank",RC+":est_value_at_quantile",RC2+":interpolate_rank",LD+":est_quantile_at_value"])
p("TDigest does not depend on unit and origin","Inserting a*x+b for every x (a > 0, weights unchanged) by add, add_buffer and add_centroid_buffer gives, coin for coin, the same TDigest with all means and both limits transformed; est_quantile_at_value(a*x+b) is then what est_quantile_at_value(x) was, and est_value_at_quantile answers are transformed too, for shifts (a = 1) always, for other a unless the target lies in the right half of the last centroid and not in its last unit of weight (there the interpolation ignores the distance to the maximum). With add_cluster the quantile answers are invariant under scaling but not under shifts; add_cluster_tree is not invariant under scaling (adding 100 twice panics, adding 1/100 twice does not).","all a > 0 and b, all histories of finite items within range, all scale functions and compression factors, all queries, all tie-breaking of the sort; value queries for weights of at least 1","relates two executions for all data, all maps and all sort orders",[TD+":add_centroid_buffer",TD+":est_quantile_at_value",TD+":est_value_at_quantile",TD+":add_cluster"])
p("TDigest and infinite items","Items that are finite or +inf (or: finite or -inf) are always accepted by add, add_buffer and add_centroid_buffer: no panic, total weight conserved, no NaN mean; after +inf the maximum and the last mean are +inf. With finite items and +inf every est_quantile_at_value of a finite value or +inf is a finite number. The mirrored statement is false: with -inf the quantile of a finite value can be NaN. With both signs a mean can become NaN and the next insertion panics. est_value_at_quantile can be NaN with +inf only, and a digest that has only seen +inf answers the largest finite number as its minimum.","all histories of items with positive finite weight whose values are finite or +inf (finite or -inf), all scale functions and compression factors, all queries, all tie-breaking of the sort","infinite values pass through sums, products and quotients of every merge and query, in all orders",[TD+":add_centroid_buffer",TD+":est_quantile_at_value",TD+":est_value_at_quantile"])
p("Random data generators and weight zero","gen_uniform_vec, gen_uniform_tan_vec, gen_uniform_exp_vec, gen_uniform_centroid_vec and gen_uniform_centroid_random_weight_vec return size values (none for a negative size); uniform values lie in 0..=1001 (in f64 below 1001, in f32 the excluded bound 1001 can occur), those of gen_uniform_tan_vec are the rounded tangents of the samples, exponential ones are at most -1, and a parameter lambda that is not positive panics. A TDigest takes unit-weight centroids and positive random weights without panic and its weight grows by their sum. A weight drawn as 0 is taken but poisons the digest: if the first batch has only zero weights all means are NaN and every further insertion panics; one zero weight among others can be enough, and a query may panic too.","all samples in the range of the distribution, all sizes; TDigest: all scale functions, compression factors, histories, tie-breaking of the sort","the samples are random; weight zero and the rounding to 1001 are too rare to be drawn in tests",[U+":gen_uniform_vec",U+":gen_uniform_exp_vec",U+":gen_uniform_centroid_random_weight_vec",TD+":add_centroid_buffer"])
p("Order of items between compactions and within a batch is irrelevant","RCSketch and RCSketch2: as long as the items supplied do not fill the first buffer (for RCSketch2: the sketch), supplying them in another order, by other calls or in other batches makes no difference to count() or to any later answer, whatever is inserted afterwards; in particular the first 2k-1 items of RCSketch::new(n, k) and the first 6k-1 items of RCSketch2::new(k) may come in any order. TDigest: permuting the items within each add_buffer / add_centroid_buffer call leaves the set of possible results and answers unchanged, in floating point too, and the first batch of plain items has exactly one result. Across compactions (sketches) and across batches (TDigest) the order does matter.","all sizes n and k, all section sizes, all histories before and after, all permutations and batchings, all random bits and tie orders, all items including NaN and infinities","Tests insert in one order; they cannot show that no permutation of a batch followed by any continuation gives another answer.",[RC+":insert_at_rc_batch",RC+":compact",RC2+":insert_batch",RC2+":compact_buffer",TD+":add_centroid_buffer"])
p("Size and resolution of a TDigest in floating point (k0)","TDigest::<f64>::new(&k0, &inv_k0, D) with 1 <= D <= 10^7 holds at most D + 1 centroids after any history of at most 2^52 items of magnitude up to 2^970, however they are batched, and every centroid has weight 1 or at most n(2/D + 40/2^53); for f32 the same with D <= 900, 2^23 items of magnitude up to 2^103 and 40/2^24. So rounding costs at most a vanishing part of the resolution proved for exact arithmetic in C77/C78, but it can change the number of centroids: 0, 1, ..., 54 with factor 22 give 12 centroids in f64, 11 in exact arithmetic.","all factors in the range, all histories of insertion calls, all items in the range, all tie orders; any arithmetic with monotone rounding, relative error u and exact small counts","Whether the rounded inv_k0(k0(q) + 1) falls just below or just above a cumulative weight depends on the last bit at every cut; a test sees a few sizes and batchings, not whether a long series of such errors can add up to more centroids or heavier ones.",[TD+":add_centroid_buffer",SF+":k0",SF+":inv_k0"])
p("Rank accuracy of a TDigest in floating point (k0)","TDigest::<f64>::new(&k0, &inv_k0, D) with 1 <= D <= 10^7, after p calls of add_buffer with together n <= 2^52 items of magnitude up to 2^e (-1022 <= e <= 970): with M = max(1, n(2/D + 40/2^53)), est_quantile_at_value(x) never panics and answers y such that y*n is, up to (p + 1)M + n/2^51, between the number of items below x - s and the number of items up to x + s, where s = p(M + 1)2^e/2^52. The same for f32 (D <= 900, n <= 2^23, -126 <= e <= 103) with 2^23 for 2^52. The shift s cannot be left out: 35 items 0.9 and one item 1, D = 6, and x the double after 0.9: 35 of 36 items are below x and the answer is below 0.1.","all factors, exponents and histories of batches in the range, all items, all x, all tie orders; in the general form all scale functions and any arithmetic with monotone rounding, relative error u and absolute error eta","Means are rounded at every merge and the rounding errors of equal or near items change which side of x they are counted on; a test sees the few data sets it tries and cannot tell whether errors of many merges add up, nor bound the effect for all data.",[TD+":add_centroid_buffer",TD+":est_quantile_at_value"])
p("TDigest value and quantile queries are mutually consistent","On a TDigest with at least two centroids, est_value_at_quantile(est_quantile_at_value(x)) never panics and lies within the data and in the same gap between neighbouring centroid means as x; it is x for the minimum, for x = the mean of a centroid (other than the last, and other than a first centroid of weight 1), and below the first mean (weight > 2). This holds for every x that is not strictly between the last mean and the maximum. There it is false: the answer is max - (max - x)/(max - last mean), a length divided by a length, so 0, 0.1, ..., 1.1 with factor 6 answers 0.2 for x = 0.965.","all histories of insertion calls with weights 1 or >= 2, all scale functions, all x, all tie orders","The two queries use different interpolation formulas with several special cases for weight 1 and for the tails; a test of the round trip tries a few points of a few digests, the statement is about every point of every reachable digest.",[TD+":est_quantile_at_value",TD+":est_value_at_quantile"])
p("Accuracy of TDigest value queries in floating point (k0)","TDigest::<f64>::new(&k0, &inv_k0, D) with 1 <= D <= 10^7, after p calls of add_buffer with together n <= 2^52 items of magnitude up to 2^e (-1022 <= e <= 970): with M = max(1, n(2/D + 40/2^53)), est_value_at_quantile(q) for q >= 0 with nq < n - M/2 - n/2^51 never panics and answers a finite v such that nq is, up to (p + 1)M + n/2^51, between the number of items below v - s and the number of items up to v + s, where s = (p(M + 1) + 12)2^e/2^52. The same for f32 (D <= 900, n <= 2^23, -126 <= e <= 103) with 2^23 for 2^52.","all factors, exponents and histories of batches in the range, all items, all q outside the last tail, all tie orders; in the general form all scale functions and any arithmetic with monotone rounding, relative error u and absolute error eta","The target q*n, the means and the interpolation are all rounded, and a wrong side of one comparison selects another centroid; a test sees the few data sets and quantiles it tries and cannot bound the effect for all data.",[TD+":add_centroid_buffer",TD+":est_value_at_quantile"])
p("The buffer size of an RCSketch as computed in floating point","RCSketch::<F>::new(n, k) computes its buffer size as 2 * k * ceil(log2(n / k)) in F. With any log2 that is monotone, exact for powers of two and above 1 at 3 the result is max(2kc, 2k) with c = ceil(log2(n/k)) or one less (F = f64, f32; 130k below 2^52 resp. 2^23), so the sketch is, apart from its input_length field, the sketch of exact arithmetic for some n' <= n with n < 2n' + 2k; its count is exact, buffers stay below the capacity and rank errors are bounded by the compactions. Insertions of up to n < 2^32 non-NaN items never panic, whichever of the two sizes results. If log2 has relative error at most 2^-50 (f64) the size is exactly the intended one for n/k <= 2^42; for f32 (2^-22) for n/k <= 2^16.","all n, k in the stated ranges, all log2 functions with the stated properties, all insertion histories and items, all coins and tie orders","Whether the rounded logarithm lands on the right side of an integer depends on the platform's log2 next to powers of two; a one-section-short buffer shows only for particular n and k, and that it does not underflow the compaction index needs an argument over all counter values.",[RC+":new",RC+":calc_buffer_size",RC+":get_compact_index"])
p("Exactly how many items an RCSketch takes","Let L = max(1, ceil(log2(n/k))) and cap = 2k(4^L - 1) for L <= 16, cap = k(2^33 - 34 + 2L) otherwise. An RCSketch created with new(n, k) accepts any history of insertions (add, add_buffer, add_buffer_fast mixed) of fewer than cap non-NaN items without panicking, also far beyond the declared length n. A history without fast insertions of cap or more items never returns, whatever the items, the split into calls, the coins and tie orders: the add that brings the total to cap fails with an arithmetic overflow. For n < k(2^33 - 34) the declared length is below cap; cap is at least 2k((n/k)^2 - 1) for n/k <= 2^16.","all n, k >= 1, insertion histories, items, coins, tie orders, number formats","The failing counter value is reached after 4^L - 1 sections; for realistic n and k that is billions of items, and the exact threshold depends on the sum of trailing ones of all counters before.",[RC+":get_compact_index",RC+":calc_buffer_size",RC+":add_buffer_custom",RC+":add"])
p("Accuracy of a buffered TDigest in floating point under mixed use","Take BufferedDigest::new(TDigest::new(&k0, &inv_k0, D), capacity) over f64 with 1 <= D <= 10^7 and capacity > 0, and any interleaving of add, add_buffer, est_quantile_at_value and est_value_at_quantile on it, with 1 <= n <= 2^52 items of magnitude at most 2^e (e between -1022 and 970), q queries and finite arguments. No call panics. With M = max(1, n (2/D + 40/2^53)) and P = 1 + q + n/(capacity + 1), the quantile then answered for x is, up to (P + 1) M + n/2^51 items, the rank of a value within P (M + 1) 2^e / 2^52 of x; the value answered for a quantile q0 with n q0 < n - M/2 - n/2^51 is, up to the same number of items, within (P (M + 1) + 12) 2^e / 2^52 of a value of rank n q0. The same holds over f32 with D <= 900, n <= 2^23, e between -126 and 103, and 2^24, 2^22, 2^23 in place of 2^53, 2^51, 2^52.","all capacities > 0, all factors in the range, all histories of insertions and queries, all finite items of the stated size, all query arguments","A statement about every interleaving of insertions and queries, every buffer capacity and the accumulated rounding of every merge; a test sees a handful of histories and no bound.",[BD+":add",BD+":add_buffer",BD+":flush",BD+":est_quantile_at_value",BD+":est_value_at_quantile",TD+":add_buffer"])
p("ParallelDigest's chunk length computed in f64 loses no item","ParallelDigest::add_buffer cuts its slice into chunks of ((len as f64 / digests as f64).ceil() as usize).max(1) items, computed in f64. For every slice of fewer than 2^53 items and every number of digests from 1 to 2^53 this is the exact quotient rounded up, but at least 1, so there are never more chunks than digests and add_buffer hands every item to an inner digest (with no digests the slice is one chunk). From 2^53 + 1 items on this fails: with one inner digest, the digest receives only the first 2^53 of 2^53 + 1 items.","all slice lengths below 2^53, all numbers of digests up to 2^53, all inner digests, all items","Whether a rounded quotient ever drops to the integer below cannot be seen from a few lengths: it is a number-theoretic statement about all pairs of lengths, and no test can allocate a slice near the limit.",[PD+":add_buffer"])
p("Accuracy of a ParTDigest in floating point under mixed use","Take ParTDigest::new(threads, capacity, || TDigest::new(&k0, &inv_k0, D)) over f64 with threads >= 1 and 1 <= D <= 10^7, and any interleaving of add, add_buffer, flush, est_quantile_at_value and est_value_at_quantile on it, with 1 <= n <= 2^52 items of magnitude at most 2^e (e between -1022 and 970), c queries and explicit flushes, and finite arguments. No call panics. With r = 2/D + 40/2^53, M = max(1, n r) and P = 1 + c + n/(capacity + 1), the quantile then answered for x is, up to n r (P + 1) + 2 M + n/2^51 items, the rank of a value within P (M + 1) 2^e / 2^51 of x; the value answered for a quantile q >= 0 with n q < n - M/2 - n/2^51 is, up to the same number of items, within (P (M + 1) + 6) 2^e / 2^51 of a value of rank n q. The same holds over f32 with D <= 900, n <= 2^23, e between -126 and 103, and 2^24, 2^22 in place of 2^53, 2^51. The number of threads does not enter the bound.","all thread counts >= 1, all capacities, all factors in the range, all histories of insertions, flushes and queries, all finite items of the stated size, all query arguments, every order in which unstable sorts leave equal items","A statement about every interleaving, every split of the buffer into chunks and the accumulated rounding of two levels of merging; a test sees a handful of histories and no bound.",[PT+":new",PT+":add",PT+":add_buffer",PT+":flush",PT+":est_quantile_at_value",PT+":est_value_at_quantile",TD+":add_centroid_buffer"])
p("ParTDigest memory is bounded by the compression factor and the capacity","Whatever the history of add, add_buffer, flush and queries on a ParTDigest with at least one thread, its digest keeps fewer than d + 1 centroids with k0, at most d + 3 with k2 (d <= 10^6), k2_asym (4d <= 10^6) and k3 (d <= 10^5), and at most capacity items are pending, in exact arithmetic; so the size depends neither on the number of items nor on the number of threads or flushes. Over f64 with k0 and 1 <= D <= 10^7 there are at most D + 1 centroids, each of weight 1 or at most n(2/D + 40/2^53), for up to 2^52 items of magnitude up to 2^970; over f32 the same with D <= 900, 2^23 items, 2^103 and 2^24.","all call histories, all thread counts >= 1 and capacities, all factors in the range, all tie orders","A bound for every history and number of flushes; each flush merges many small digests into the inner one, and a test cannot exclude that some cut into chunks leaves more centroids.",[PT+":flush",PT+":add",PT+":add_buffer",TD+":add_centroid_buffer"])
p("A TDigest that has not merged anything is exact in floating point","As long as a TDigest holds as many centroids as items (n at least 2, every item a finite number of the format), its floating point quantile estimates are bit for bit those of a LinearDigest of the same items, for every queried value, and the value at a quantile q is an item of the input, namely the one with floor(fl(n*q)) items before it in sorted order (the largest if there is none). A TDigest<f64> with k0 and compression factor D up to 10^7 (f32: up to 900) is in that situation after any insertions of fewer than D items, and then count() is n too.","all monotone rounding arithmetics with room for the items (f64 and f32 proved to be such), all scale functions, all histories of add/add_buffer/centroid batches of weight 1, all values and all quantiles in [0,1]","Depends on every comparison, sum, division and subtraction of the merge and of both queries being exact or rounded the same way as in LinearDigest; a test compares a handful of values and tolerates a small difference.",[TD+":est_quantile_at_value",TD+":est_value_at_quantile",TD+":add_centroid_buffer",LD+":est_quantile_at_value"])
p("SymDigest of RCSketch2s is accurate at both ends","A SymDigest of two RCSketch2s with parameter k (sections as the code computes them in f32, 264 <= k < 2^24, or exact ones, k >= 256), after any insertions of N < 2^32 items without NaN through the trait, answers est_quantile_at_value(x) with a mean squared error over the coins of at most 4 p^2/k, where p is the fraction of items <= x when x is below the middle by more than 360/k in rank, and the fraction of items >= x when it is above (relative accuracy at both ends); whatever the coins the answer is at most 180/k outside the interval between the fractions of items < x and <= x. est_value_at_quantile(q), q < 1/2 (q > 1/2), has relative rank error at most e towards the lower (upper) end except with probability 48/(k e^2).","all insertion histories, all values and quantiles, exact counting of coin flips","A statement about the distribution of answers for every history; the accuracy at the upper end comes from the mirrored sketch and from the choice between the two sides, which a test samples for a few values only.",[SD+":est_quantile_at_value",SD+":est_value_at_quantile",SD+":add_buffer",RC2+":compress"])
p("A buffered TDigest of few items is exact in floating point","A BufferedDigest with any capacity except 0 around a TDigest<f64> with k0 and compression factor D up to 10^7 (f32: up to 900), after any mixture of insertions and queries that together inserts at least 2 and fewer than D items (finite numbers of the format of magnitude up to 2^970; f32: 2^103), answers est_quantile_at_value(x) bit for bit like a LinearDigest of the items inserted so far, and est_value_at_quantile(q) with the item that has floor(fl(n*q)) items before it in sorted order (the largest if there is none). Neither the capacity nor the queries in between matter.","all capacities but 0, all histories of add, add_buffer and queries, all values and all quantiles in [0,1]; IEEE f64 and f32","How the items are split into batches depends on the capacity and on when queries flush the buffer; a test fixes one splitting and compares within a tolerance.",[BD+":est_quantile_at_value",BD+":est_value_at_quantile",BD+":flush",TD+":est_quantile_at_value"])
p("insert_at_rc and insert_at_rc_batch insert weighted items","On an RCSketch::new(n, k), an item passed to insert_at_rc or insert_at_rc_batch at level h counts as 2^h items: for even k the stored weight is the total weight supplied after any mixture of ordinary and level-wise calls; with default compaction the stored weight up to x differs from the supplied weight up to x by at most sum_h 2^h (compactions at level h), equals it in expectation, and has mean squared error at most 2 W^2/(k buffer_size) for total weight W; interpolate_rank returns the stored weight. No such call panics while levels are opened in order, no item is NaN and fewer items are passed than the capacity of C122; a call with items that skips a level panics. count() only counts the ordinary calls, so quantile queries after level-wise insertion can exceed 1.","all n, k, all finite mixtures of add, add_buffer, add_buffer_fast, add_buffer_custom, insert_at_rc and insert_at_rc_batch calls, all coins, all values x; weights below 2^63 for interpolate_rank","The tests never call the two public functions at a level other than the one the sketch itself chooses; the accuracy statements range over all coins and all mixtures.",[RC+":insert_at_rc",RC+":insert_at_rc_batch",RC+":interpolate_rank",RC+":count"])
p("RCSketches can be merged level by level","Let a and b be two RCSketches built independently with their own parameters, and let a client merge b into a through the public interface: pass each level h of b.buffers to a.insert_at_rc_batch at level h (default compaction, fast or not) and add b.count to a.count. Then count() is N1+N2; the stored weight is N1+N2 (even k's); if N1+N2 is below a's capacity and N2 below b's, nothing panics, the merged sketch is unbiased, E[stored weight up to x] = #{items of both <= x}, and its mean squared error is at most 2(N1+N2)^2/(k1 B1) + 2 N2^2/(k2 B2); for any b whatsoever the error added by the merge is at most the weighted number of compactions of a; interpolate_rank returns the stored weight for fewer than 2^63 items.","all parameters, all insertion histories of both sketches, all coins of both, all values x, fast or ordinary compaction during the merge","Merging is what the public buffers and level-wise functions make possible, and is not tested at all; unbiasedness and the error bound are statements about the joint distribution of both sketches' coins.",[RC+":insert_at_rc_batch",RC+":compact",RC+":interpolate_rank"])
p("RCSketch stays unbiased and accurate beyond its declared length","An RCSketch::new(n, k) with even k fed N items, where N may exceed the declared length n up to the capacity of C122: interpolate_rank(x) is unbiased, has mean squared error at most 2 N^2/(k buffer_size), and is off by eps*N or more with probability at most 2/(k buffer_size eps^2), whatever N is.","all n, even k, all insertion histories with default compaction and fewer than min(capacity, 2^63) non-NaN items, all coins, all x, all eps > 0","A statement about the distribution over all coin sequences and about histories longer than the declared length, which no test supplies.",[RC+":new",RC+":calc_buffer_size",RC+":compact",RC+":interpolate_rank"])
p("RCSketches can be merged in any shape","Let a client build any number of RCSketches with their own parameters, insert into them at any time, and merge them level by level (as in C131) in any order and shape, e.g. a tree of shards. The final count and stored weight are the number of all items supplied, stored items are supplied items, and, while every sketch receives fewer items (directly and by merging) than its capacity, nothing panics and interpolate_rank(x) is unbiased with mean squared error at most the sum over all sketches of 2 N^2/(k buffer_size), N the items that reached the sketch. 2^h shards of equal size merged pairwise have mean squared error at most 3 N^2/(k buffer_size), N the total number of items, whatever the number of shards.","all merge trees, all even k >= 2, all insertion histories with default compaction, ordinary or fast compaction during merges, fewer than min(capacity, 2^63) non-NaN items, all coins, all x","A statement about all merge trees and the distribution over all coins of all sketches.",[RC+":insert_at_rc_batch",RC+":compact",RC+":interpolate_rank"])
p("Every public call of RCSketch2 may be mixed with insertions","Calling insert, insert_batch, compress, grow and update_sections directly on an RCSketch2, at any time and mixed with add, add_buffer, add_buffer_fast and add_buffer_custom, keeps the sketch sound: sketch_size is the number of stored items and below get_sketch_capacity, count is the number of items supplied by the counting calls (insert and insert_batch do not count), nothing panics, ranks up to half a new buffer's capacity are exact, interpolate_rank is off by at most sum 2^h times the compactions of level h, is unbiased and has the mean squared error of C66. update_sections(h) never changes a sketch between calls (and panics when there is no buffer h). There are at most 50 levels plus one per grow call, so rank queries do not panic for up to 14 grow calls; after 64 grow calls every rank query panics.","all lists of the nine calls in any order, k >= 4 (any admissible section sizes), fewer than 2^32 non-NaN items, default or fast compaction (any method for binary floating point where stated), all coins, all x","Maintenance calls at arbitrary points of arbitrary histories.",[RC2+":compress",RC2+":grow",RC2+":update_sections",RC2+":insert",RC2+":insert_batch"])
p("TDigests built separately may be merged in any shape","A client that fills TDigests separately and merges them with a.add_centroid_buffer(b.centroids), in any tree of insertions and merges, with any scale functions and compression factors, gets a digest whose total weight (for plain items: count) and mass are those of everything supplied to any of them, whose centroids are sorted and between min and max, and whose min and max lie between the extremes supplied; nothing panics, quantile queries answer in [0,1] (0 below and 1 above everything supplied), value queries return, min at 0 and max at 1. The size bounds of the receiving digest hold whatever was merged in (k0: fewer than delta+1 centroids; k2, k2_asym, k3: at most delta+3). With k0 and factors of at least delta the rank error is at most max(M, W/delta) + (2/delta) * (the weight represented after each insertion call and each merge, added up), M the heaviest supplied cluster; for 2^h shards of any sizes, one batch each, merged in pairs, this is max(1, n/delta) + (h+1) * 2n/delta. In f64 (up to 2^52 items of magnitude up to 2^970) nothing panics, the count is exact, quantiles are in [0,1]. But merging loses the extremes: min and max of the merged digest are means of merged centroids, not the smallest and largest items.","all trees of new / add / add_buffer / add_centroid_buffer / merge, all scale functions and compression factors (k0 and factors >= delta > 0 for the error bound), all items and positive weights in range (weights >= 1 for queries and sizes), all orders of ties in the unstable sort, all query arguments","Arbitrary merge trees over arbitrary digests; a test fixes one shape.",[TD+":add_centroid_buffer",TD+":add_buffer",TD+":TDigest.centroids",TD+":est_quantile_at_value",TD+":est_value_at_quantile"])
p("Accuracy of merged TDigests in floating point","TDigests over f64 with k0, inv_k0 and one compression factor D (1 <= D <= 10^7; f32: 900), filled with together n (at most 2^52; f32: 2^23) items of magnitude up to 2^e and merged in any tree with a.add_centroid_buffer(b.centroids): with rho = 2/D + 40/2^53 and M = max(1, n rho) the merged digest keeps at most D+1 centroids; the quantile it answers for x is the rank of a value within depth * (M+1) * 2^e / 2^52 of x, up to rho * passes + 2M + n/2^51 items, where depth is the longest chain of insertion calls and merges and passes the weight represented after each of them, added up; the value it answers for a quantile q with n q < n - M/2 - n/2^51 is within (depth*(M+1)+12) * 2^e / 2^52 of a value of rank n q up to the same error. For 2^h shards of any sizes, one batch each, merged in pairs, depth is h+1 and passes (h+1) n.","all trees of new / add / add_buffer / add_centroid_buffer / merge of plain items, all factors, magnitudes and counts in the stated ranges, all orders of ties in the unstable sort, all query arguments (values: outside the last half centroid)","Rounding in every weighted mean of every pass along every path of an arbitrary merge tree, at sizes no test reaches.",[TD+":add_centroid_buffer",TD+":add_buffer",TD+":est_quantile_at_value",TD+":est_value_at_quantile",SF+":k0",SF+":inv_k0"])
p("Accuracy towards both ends survives any number of batches and merges","The point of the scale functions k2 and k3 is accuracy relative to the distance from either end. C86 shows it for one batch; this is kept, up to one factor per pass, by any tree of insertion calls and merges. Let all digests use k2 (or k3) with compression factor delta <= 10^5, W the whole supplied weight and r = 10^((4*log10(W/delta)+24)/delta) (21 for k3). A quantile query at x answers e such that W*e counts the data below x up to a factor r^depth, from below and from above at once: weight below x <= r^depth*(W*e+H), W*e <= r^depth*(weight up to x)+H, weight above x <= r^depth*(W-W*e+H), W-W*e <= r^depth*(weight from x on)+H, where H (at least 1) is half the weight of the heaviest centroid next to x and depth the number of passes on the longest path of the tree (for one digest: the number of insertion calls). The value found for a quantile q has the same property with W*q in place of W*e. No centroid is ever heavier than W*(r-1)/(r+1) or the heaviest supplied cluster.","all delta in (0, 10^5], all trees of insertion calls and merges of digests with these scale functions, all supplied clusters in range with weights >= 1 and total below 2^64, all orders of ties in the unstable sort, all query arguments (value queries: outside the right half of the last centroid, C84)","The drift accumulates over batches; tests compare one data set in one batch with fixed tolerances.",[TD+":add_centroid_buffer",TD+":est_quantile_at_value",TD+":est_value_at_quantile",SF+":k2",SF+":k3"])
p("Value and quantile queries of merged and of overfull RCSketches are accurate","Let a sketch have been obtained by any tree of insertion calls and level-by-level merges of RCSketches (C133), N < 2^32 items in all, every sketch below its capacity; or let one RCSketch have been fed more items than declared, below its capacity (C122). est_value_at_quantile(q), q in [0,1], returns one of the supplied items, and except with probability at most 2V/d^2 at most q*N + d items lie below the answer and at least q*N - d are not above it, V the mean squared error bound of C133 (q*N as computed). For 2^h shards of equal size merged pairwise and d = e*N the probability is at most 6/(k*buffer_size*e^2), for one sketch beyond its declared length at most 4/(k*buffer_size*e^2), whatever N. est_quantile_at_value(x) is the stored weight up to x over N as computed, hence within e of the true quantile except with probability V/(e*N)^2 (exact arithmetic).","all merge trees with even section sizes and default compaction, all inputs without NaN, all q in [0,1], all x that are not NaN, all d, e > 0; probability over the coin flips of all sketches","A probabilistic statement over all merge trees; tests run one sketch with one seed.",[RC+":est_value_at_quantile",RC+":est_quantile_at_value",RC+":insert_at_rc_batch",RC+":interpolate_rank"])
p("Rank error of digests with mixed scale functions through any batches and merges","C135 bounds the rank error of merged digests for k0 only. This covers k0, k1, k2 and k3, and digests of different scale functions and compression factors merged into one another. Let c be such that every digest involved has 2/delta <= c (k0), pi/delta <= c (k1) or (r-1)/(r+1) <= c with r = 10^((4*log10(W/delta)+24)/delta) (k2; 21 for k3), W the whole supplied weight. Then, after any tree of insertion calls and merges, a quantile query at x answers e with W*e between the weight below x and the weight up to x, up to max(M, c*W/2) + c*P, where M bounds the supplied weights and P adds up the weight represented after every insertion call and merge (at most depth*W). Value queries have the same error. No centroid is heavier than max(M, c*W). For 2^h shards with k1, one batch each, merged in pairs: off by at most max(1, pi*n/(2*delta)) + (h+1)*pi*n/delta items; for one digest with k1 and B insertion calls: max(M, pi*W/(2*delta)) + B*pi*W/delta.","all delta > 0 (k2, k3: up to 10^5), all trees of insertion calls and merges, all supplied clusters in range with weights >= 1, all orders of ties in the unstable sort, all query arguments (value queries: total below 2^64, outside the right half of the last centroid, C84)","The error adds up over passes and the step of k1 is largest in the middle and folds over at the right end; tests look at one data set at a time, with one scale function.",[TD+":add_centroid_buffer",TD+":est_quantile_at_value",TD+":est_value_at_quantile",SF+":k0",SF+":k1",SF+":k2",SF+":k3"])
p("With k1 the error shrinks like the square root of the distance from the end","k1 is meant to be more accurate near both ends. After one add_buffer call with n items on a new digest with k1 and compression factor delta, a quantile query at x is off, as a rank, by at most 3/2 times the larger of 1 and 2*(pi/delta)*sqrt(n*D) + 3*(pi/delta)^2*n, where D is the smaller of the numbers of items <= x and >= x. The value found for a quantile q has a rank within the same distance of n*q, unless q lies right of the middle of the last centroid (C84). So for D proportional to n the error is of order n/delta and near the ends of order n/delta^2.","all delta > 0, all non-empty batches of items in range, fewer than 2^64, all orders of ties in the unstable sort, all query arguments (value queries: outside the right half of the last centroid)","A bound on the worst case over all data sets and query points; inv_k1 turns back at the right end, which the bound has to survive. Tests compare single estimates with fixed tolerances.",[TD+":add_buffer",TD+":est_quantile_at_value",TD+":est_value_at_quantile",SF+":k1",SF+":inv_k1"])
p("The square-root law of k1 survives any number of batches and merges","Let all digests use k1 with compression factors of at least delta, W the whole supplied weight, depth the number of passes on the longest path of the tree of insertion calls and merges, F = depth*(pi/delta)*sqrt(W). A quantile query at x answers e such that r = W*e counts the data below x up to F in the square root, from below and from above at once: weight below x <= (sqrt(r+H)+F)^2, r <= (sqrt(weight up to x)+F)^2+H, W-r <= (sqrt(weight from x on)+F)^2+H, weight above x <= (sqrt(W-r+H)+F)^2, where H (at least 1) is half the weight of the heaviest centroid next to x. The value found for a quantile q has the same property with W*q in place of r. No centroid is heavier than pi*W/delta or the heaviest supplied cluster.","all delta > 0, all trees of insertion calls and merges of digests with k1, all supplied clusters in range with weights >= 1 and total below 2^64, all orders of ties in the unstable sort, all query arguments (value queries: outside the right half of the last centroid, C84)","The drift accumulates over passes of different sizes; tests use one batch and compare single estimates.",[TD+":add_centroid_buffer",TD+":est_quantile_at_value",TD+":est_value_at_quantile",SF+":k1",SF+":inv_k1"])
p("Rank error of a ParTDigest with any of k0, k1, k2, k3","Let a ParTDigest be made with k0, k1, k2 or k3 and let c be the largest fraction of the n supplied items that its scale function lets into one centroid (2/delta for k0, pi/delta for k1, (r-1)/(r+1) for k2 and k3, r the factor of one step). After any history, est_quantile_at_value(x) answers e with n*e within max(1, c*n/2) + p*c*n of the ranks of x, where p = 2 + calls that flush (queries, flush) + n/(capacity+1) bounds the passes over any item. est_value_at_quantile(q) answers a value whose ranks are as close to n*q.","all delta > 0 (at most 10^5 for k2 and k3), all thread counts > 0, all capacities, all histories of add, add_buffer, queries and flush with finite items in range, fewer than 2^64, all orders of ties in the unstable sort, all query arguments (value queries: outside the right half of the last centroid, C84)","Every flush clusters each chunk and then clusters the clusters; tests compare a few estimates of one fixed history.",[PT+":flush",PT+":est_quantile_at_value",PT+":est_value_at_quantile",TD+":add_centroid_buffer"])
p("A ParTDigest with k2 or k3 stays accurate towards both ends","Let a ParTDigest be made with k2 or k3 and compression factor delta, n the number of supplied items, r = 10^((4*log10(n/delta)+m)/delta) with m = 24 (k2) or 21 (k3), p = 2 + calls that flush + n/(capacity+1). After any history a quantile query at x answers e such that n*e counts the data below x up to the factor r^p, from below and from above at once, and H, half the weight of the heaviest centroid next to x (at least 1): items below x <= r^p*(n*e+H), n*e <= r^p*(items up to x)+H, n-n*e <= r^p*(items from x on)+H, items above x <= r^p*(n-n*e+H). The value found for a quantile has the same property. No centroid is heavier than max(1, n*(r-1)/(r+1)).","all 0 < delta <= 10^5, all thread counts > 0, all capacities, all histories of add, add_buffer, queries and flush with finite items in range, fewer than 2^64, all orders of ties in the unstable sort, all query arguments (value queries: outside the right half of the last centroid, C84)","That chunking and reclustering does not spoil the accuracy of the tails is a statement about all data and all flush patterns.",[PT+":flush",PT+":est_quantile_at_value",PT+":est_value_at_quantile",TD+":add_centroid_buffer"])
p("The square-root law of k1 for a ParTDigest","Let a ParTDigest be made with k1 and compression factor delta, n the number of supplied items, p = 2 + calls that flush + n/(capacity+1), F = p*(pi/delta)*sqrt(n). After any history a quantile query at x answers e such that n*e counts the data below x up to F in the square root and H, half the weight of the heaviest centroid next to x (at least 1), from below and from above at once: items below x <= (sqrt(n*e+H)+F)^2, n*e <= (sqrt(items up to x)+F)^2+H, and the same from above. The value found for a quantile has the same property. No centroid is heavier than max(1, pi*n/delta).","all delta > 0, all thread counts > 0, all capacities, all histories of add, add_buffer, queries and flush with finite items in range, fewer than 2^64, all orders of ties in the unstable sort, all query arguments (value queries: outside the right half of the last centroid, C84)","A statement about all data, chunkings and flush patterns; tests use the default digest with one batch.",[PT+":flush",PT+":est_quantile_at_value",PT+":est_value_at_quantile",TD+":add_centroid_buffer"])
p("k2_asym is accurate towards the lower end, through merges","Let TDigests be made with k2_asym and compression factor delta, and r = 10^((4*log10(n/(2*delta))+24)/(2*delta)) for the total weight n. However digests were filled and merged, with at most m compression passes over any item: a quantile query at x answers e such that n*e counts the data below x up to the factor r^m from the lower end and up to H, half the weight of the heaviest centroid next to x (at least 1): weight below x <= r^m*(n*e+H), n*e <= r^m*(weight up to x)+H. The value found for a quantile has the same property. No centroid is heavier than the heaviest supplied cluster and (r-1)/2*n, and ranks are off by at most half that plus m*(r-1)/2*n anywhere.","all delta with 0 < delta <= 50000, all trees of insertions and merges (by add_centroid_buffer) of digests with k2_asym and that delta, all finite items and clusters of weight at least 1 in range with total below 2^64, all orders of ties in the unstable sort, all query arguments (value queries: outside the right half of the last centroid, C84)","A statement about all data and all ways of batching and merging; the repository has no test of a digest with k2_asym and comparing a few points cannot show that the error shrinks in proportion towards the lower end.",[SF+":k2_asym",SF+":inv_k2_asym",TD+":add_buffer",TD+":add_cluster",TD+":add_centroid_buffer",TD+":est_quantile_at_value",TD+":est_value_at_quantile"])
p("k2_asym in a ParTDigest: accurate towards the lower end after any history","Let a ParTDigest be made with k2_asym and compression factor delta, n the number of supplied items, p = 2 + calls that flush + n/(capacity+1), r = 10^((4*log10(n/(2*delta))+24)/(2*delta)). After any history a quantile query at x answers e such that items below x <= r^p*(n*e+H) and n*e <= r^p*(items up to x)+H, with H half the weight of the heaviest centroid next to x (at least 1); anywhere the rank is off by at most max(1,(r-1)/4*n) + p*(r-1)/2*n. The same for the value found for a quantile. No centroid is heavier than max(1,(r-1)/2*n).","all delta with 0 < delta <= 50000, all thread counts > 0, all capacities, all histories of add, add_buffer, queries and flush with finite items in range, fewer than 2^64, all orders of ties in the unstable sort, all query arguments (value queries: outside the right half of the last centroid, C84)","A statement about all data, chunkings and flush patterns; no test uses this scale function in a digest.",[SF+":k2_asym",PT+":flush",PT+":est_quantile_at_value",PT+":est_value_at_quantile"])
p("A SymDigest of two TDigests with k2_asym is accurate at both ends","Let a SymDigest be made from two TDigests with k2_asym and compression factor delta and be given n items in B calls; r = 10^((4*log10(n/(2*delta))+24)/(2*delta)), E = max(1,(r-1)/4*n) + B*(r-1)/2*n. A quantile query at x answers e with n*e within E ranks of x. If fewer than n/2 - E items are at most x, n*e counts the data below x up to the factor r^B and H from the lower end, H half the weight of the heaviest centroid of the lower digest next to x (at least 1); if fewer than n/2 - E items are at least x, n - n*e counts the data above x likewise, with the upper digest. A value query for q < 1/2 or q > 1/2 finds a value with the same properties for n*q; the defect of value queries at the right end of a TDigest (C84) is never met; no query panics.","all delta with 0 < delta <= 50000, all non-empty histories of add and add_buffer through the Digest trait with finite items in range, fewer than 2^64, all orders of ties in the unstable sort, all finite x, all q in [0,1] but 1/2","The combination of two digests, one over negated items, is tested with single data sets; that relative accuracy holds at both ends for all data is a statement about every history.",[SD+":est_quantile_at_value",SD+":est_value_at_quantile",SD+":add_buffer",SF+":k2_asym",TD+":est_quantile_at_value",TD+":est_value_at_quantile"])
p("Rank errors of the sub-digests of a ParallelDigest add up","If every sub-digest, fed its share of the history, counts the items of its share and answers every quantile query off by at most E_j of their ranks, the ParallelDigest answers quantile queries off by at most the sum of the E_j, and a value query for q finds a value off from the quantile by at most that many ranks, up to a millionth of |smallest|+|largest| in the value. For m TDigests with k0, k1, k2 or k3 of which every one got an item, where no more than the fraction c of the data may go into one centroid, after B calls with N items the bound is m + (B+1/2)*c*N; no query panics.","all sub-digests of any kind, all non-empty histories of add and add_buffer (non-empty slices) with finite items in range, all finite x, all q in [0,1]; for TDigests all m >= 1, fewer than 2^64 items, all orders of ties in the unstable sort","Tests compare a ParallelDigest with a few data sets split in one way; that the error of the whole never exceeds the sum of the parts, for value queries through the bisection as well, concerns all splits and all digests.",[PD+":est_quantile_at_value",PD+":est_value_at_quantile",PD+":add_buffer",TD+":est_quantile_at_value"])
p("A ParallelDigest of TDigests with k2 or k3 keeps the relative accuracy at both ends","Let m TDigests with k2 or k3 and compression factor delta form a ParallelDigest that is given N items in B calls, every sub-digest at least one. With r = 10^((4*log10(N/delta)+24)/delta) for k2 and 21 in place of 24 for k3, the answer e to a quantile query at x satisfies: N*e counts the data below x up to the factor r^B, from either end, up to the sum over the sub-digests of half the weight of the heaviest centroid next to x (at least 1 each).","all m >= 1, all delta with 0 < delta <= 10^5, all histories of add and add_buffer (non-empty slices) with finite items in range giving every sub-digest an item, fewer than 2^64 items, all orders of ties in the unstable sort, all finite x","That sharding keeps the tail accuracy t-digests are used for is a statement about every history and every way the slices fall to the sub-digests; a test observes the tails of one data set.",[PD+":est_quantile_at_value",PD+":add_buffer",TD+":est_quantile_at_value",SF+":k2",SF+":k3"])
p("Rank error of a buffered TDigest with any of k0, k1, k2, k3","Let a TDigest in a BufferedDigest be made with k0, k1, k2 or k3 and let c be the largest fraction of the n supplied items that its scale function lets into one centroid (2/delta for k0, pi/delta for k1, (r-1)/(r+1) for k2 and k3, r the factor of one step). After any history, est_quantile_at_value(x) answers e with n*e within max(1, c*n/2) + p*c*n of the ranks of x, where p = 1 + calls that flush (queries, flush) + n/(capacity+1) bounds the batches handed to the TDigest. est_value_at_quantile(q) answers a value whose ranks are as close to n*q.","all delta > 0 (at most 10^5 for k2 and k3), all capacities >= 1, all histories of add, add_buffer, queries and flush with finite items in range, fewer than 2^64, all orders of ties in the unstable sort, all query arguments (value queries: outside the right half of the last centroid, C84); exact arithmetic","A test fixes one capacity and one data set; how the error grows with the number of batches a buffer hands on, for every capacity and every interleaving of queries and flushes, is a statement about all histories.",[BD+":flush",BD+":add_buffer",BD+":est_quantile_at_value",BD+":est_value_at_quantile",TD+":est_quantile_at_value",SF+":k1",SF+":k2",SF+":k3"])
p("A buffered TDigest with k2 or k3 keeps relative accuracy at both ends","A TDigest with k2 or k3 and compression factor delta in a BufferedDigest, after any history that supplied n items: the answer e to a quantile query at x counts the data (n*e) up to the factor r^p from either end and up to half the weight of the heaviest centroid next to x (at least 1), where p = 1 + calls that flush (queries, flush) + n/(capacity+1) bounds the batches handed to the TDigest and r = 10^((4*log10(n/delta)+24)/delta) for k2, 21 in place of 24 for k3; no centroid is heavier than max(1, n*(r-1)/(r+1)). Value queries likewise.","all delta with 0 < delta <= 10^5, all capacities >= 1, all histories of add, add_buffer, queries and flush with finite items in range, fewer than 2^64, all orders of ties in the unstable sort, all query arguments (value queries: outside the right half of the last centroid, C84); exact arithmetic","A test fixes one capacity and one data set; how the error grows with the number of batches a buffer hands on, for every capacity and every interleaving of queries and flushes, is a statement about all histories.",[BD+":flush",BD+":add_buffer",BD+":est_quantile_at_value",BD+":est_value_at_quantile",TD+":est_quantile_at_value",SF+":k2",SF+":k3"])
p("A buffered TDigest with k1 keeps square-root accuracy","A TDigest with k1 and compression factor delta in a BufferedDigest, after any history that supplied n items: the square roots of the rank answered by a quantile query and of that of the data differ by at most p*(pi/delta)*sqrt(n), from either end, up to half the weight of the heaviest centroid next to x (at least 1), where p = 1 + calls that flush (queries, flush) + n/(capacity+1) bounds the batches handed to the TDigest; no centroid is heavier than max(1, pi*n/delta). Value queries likewise.","all delta > 0, all capacities >= 1, all histories of add, add_buffer, queries and flush with finite items in range, fewer than 2^64, all orders of ties in the unstable sort, all query arguments (value queries: outside the right half of the last centroid, C84); exact arithmetic","A test fixes one capacity and one data set; how the error grows with the number of batches a buffer hands on, for every capacity and every interleaving of queries and flushes, is a statement about all histories.",[BD+":flush",BD+":add_buffer",BD+":est_quantile_at_value",BD+":est_value_at_quantile",TD+":est_quantile_at_value",SF+":k1"])
p("Rank errors of the members of a MultiDigest average","If every member of a MultiDigest, alone and after the same history, answers quantile queries off by at most E_j ranks, the MultiDigest answers them off by at most the mean of the E_j. If every member finds, for a quantile q, a value within E ranks of q*N, so does the MultiDigest. For TDigests, each with k0, k1, k2 or k3 and a compression factor of its own such that no more than the fraction c_j of the N items may go into one centroid, after B insertion calls E_j = max(1, c_j*N/2) + B*c_j*N, value queries being so accurate where N*q < N - max(1, c_j*N)/2 or N*q > N-1. No query panics.","all members of any kind (at least one), all histories of insertions and queries, all finite x, all q; for TDigests all histories of add and add_buffer with finite items in range, fewer than 2^64, all orders of ties in the unstable sort","Tests average a few sketches over one data set; that averaging never makes the worst case worse than the mean (quantiles) or the largest (values) of the members' errors concerns all digests, histories and queries.",[MD+":est_quantile_at_value",MD+":est_value_at_quantile",TD+":est_quantile_at_value"])
p("A SymDigest is as accurate as its sides","If the lower digest of a SymDigest, fed the items, and the upper one, fed the negated items, both answer quantile queries off by at most E ranks, so does the SymDigest. If for a quantile q <= 1/2 the lower digest, and for q >= 1/2 the upper digest at 1-q, finds a value within E ranks, so does the SymDigest, at the median too where it averages the two. For two TDigests with k0, k1, k2 or k3 such that no more than the fraction c of the N items may go into one centroid, after B insertion calls E = max(1, c*N/2) + B*c*N; if c < 1 and N > 1 value queries have that accuracy at every q in [0,1]: the defect of value queries at the right end of a TDigest (C84) is never met.","all sub-digests of any kind, all histories of add and add_buffer with finite items, all finite x, all q in [0,1]; for TDigests items in range, fewer than 2^64, all orders of ties in the unstable sort","Tests check a few quantiles of one data set; the claim concerns every digest on either side, every history and every query.",[SD+":est_quantile_at_value",SD+":est_value_at_quantile",TD+":est_quantile_at_value"])
p("Rank error of TDigests with any scale function, k2n included, pass by pass","Digests with k0, k1, k2, k3, k2_asym and k2n, of any compression factors, are filled and merged in any shape. If G(n) bounds what each of the scale functions used lets a pass put into one centroid when the digest then has weight n (2n/d for k0, pi*n/d for k1, n*(r-1)/(r+1) with r = 10^((4*log10(n/d)+m)/d), m = 24 for k2 and 21 for k3, n*(r-1)/2 with k2's r at 2d for k2_asym, and k2's term at d' = d/10*log10(n)^2 for k2n), then no centroid is heavier than the largest G(n) of the passes (or a supplied cluster), and quantile queries are off by at most half of that plus the sum of G(n) over all insertion calls and merges; likewise value queries that are not in the right half of the last centroid. For one digest with k2n the sum runs over its insertion calls.","all trees of digests, insertion calls (items or weighted clusters of weight at least 1) and merges, all compression factors (k2, k3 and the d' of k2n up to 10^5, k2_asym up to 5*10^4), all finite x, all q, all orders of ties in the unstable sort","k2n changes its effective compression factor with every batch, so the accuracy of a digest depends on the whole schedule of batch sizes; tests fix one schedule and compare one data set.",[TD+":add_centroid_buffer",TD+":est_quantile_at_value",SF+":k2n",SF+":inv_k2n"])
p("Shuffling before building keeps searches in a KeyedSumTree short","Build a KeyedSumTree from n (key, weight) pairs with distinct keys, all n! orders being equally likely, as add_cluster_tree does by shuffling. less_than_sum(t) then visits H_a + H_b nodes on average, where a keys are below t and b are not (H_m = 1 + 1/2 + ... + 1/m); so does insert of a fresh key t; closest_keys(t) visits at most as many, and exactly as many when t is not a key. This is at most 2 + 2*ln(n). Without the shuffle, on keys inserted in increasing order, a search beyond them visits all n nodes.","all lists of pairs with distinct keys that are not NaN, all t that are not NaN, any rounding; averages over all n! orders","An average over all n! insertion orders cannot be computed by running examples, and a degenerate order is rare in tests; the cost of add_cluster_tree rests on it.",[KT+":less_than_sum",KT+":insert",KT+":closest_keys",TD+":add_cluster_tree"])
p("RCSketch rank errors have exponentially small tails","With fair coins, even section sizes, default/fast compaction and every sketch below its capacity (C122), also beyond the declared length: interpolate_rank(x) of an RCSketch with N items is off by e*N or more with probability at most 2*exp(-e^2*k*buffer_size/4). For 2^h equal shards sketched separately and merged pairwise level by level it is at most 2*exp(-e^2*k*buffer_size/6), whatever h; for any tree of insertions and merges at most 2*exp(-d^2/(2V)) for an error of d, V the variance bound of C133.","all trees of insertion calls and merges, parameters, items, x, error levels and coin distributions induced by fair coins","Failure probabilities of one in a million or less cannot be observed in tests, and the variance bounds of C61/C62 only give probabilities that fall with the square of the error.",[RC+":insert_at_rc",RC+":compact",RC+":interpolate_rank"])
p("All quantiles of an RCSketch are accurate at the same time","Under the conditions of C157, for any m >= 1: except with probability at most 2*m*exp(-k*buffer_size/(4*m^2)) every interpolate_rank(x), for all x at once, is off by less than 2*N/m, and every est_value_at_quantile(q), for all q at once, returns an item with fewer than q*N + 2*N/m items below it and more than q*N - 2*N/m not above it (N < 2^32, counts exactly representable). For any tree of insertions and merges the same holds with errors below d + N/m and probability at most 2*m*exp(-d^2/(2V)), V the variance bound of C133.","all trees of insertion calls and merges, parameters, items, numbers of strips m, and all queries simultaneously","A per-query probability says nothing about a whole plotted curve or a sequence of adaptively chosen queries; no finite set of queries covers all x and q.",[RC+":interpolate_rank",RC+":est_value_at_quantile",RC+":compact"])
p("RCSketch2 rank errors have exponentially small tails","With fair coins, k >= 264 (sections as the code computes them in f32; 256 in exact arithmetic), fewer than 2^32 non-NaN items and any mix of default and fast insertions: interpolate_rank(x) of an RCSketch2 with N items is off by e*N or more with probability at most 2*exp(-(k*e)^2/6). For other section sizes the probability of an error of d is at most 2*exp(-d^2/(2V)), V the bound of C98 on the mean squared error.","all histories of insertion calls, section sizes, items, x, error levels","Failure probabilities of one in a million or less cannot be observed in tests, and the mean squared error of C98 only gives probabilities that fall with the square of the error.",[RC2+":compress",RC2+":compact",RC2+":interpolate_rank"])
p("All quantiles of an RCSketch2 are accurate at the same time","Under the conditions of C159, for any m >= 1: except with probability at most 2*m*exp(-(k/m)^2/6) every interpolate_rank(x), for all x at once, is off by less than 2*N/m, and every est_value_at_quantile(q), for all q at once, returns an item with fewer than q*N + 2*N/m items below it and more than q*N - 4*N/m not above it (counts up to 2N exactly representable; the stored weight of an RCSketch2 is itself random, hence the second factor two).","all histories of insertion calls, section sizes, items, numbers of strips m, and all queries simultaneously","A per-query probability says nothing about a whole plotted curve or a sequence of adaptively chosen queries; no finite set of queries covers all x and q.",[RC2+":interpolate_rank",RC2+":est_value_at_quantile",RC2+":compress"])
p("Averaging m independent sketches in a MultiDigest multiplies the exponent of the tail by m","Exact arithmetic. If every member of a MultiDigest answers est_quantile_at_value(x) with a whole number of n-ths whose deviation from R has exponential moments (both signs, all bases) no larger than those of V fair signs, then the same holds for the MultiDigest with m*n, m*R and m*V, it counts m*n items, no call panics, and its answer is off from R/n by eps or more with probability at most 2*exp(-m*(eps*n)^2/(2V)). In particular for m members RCSketch::new(n,k), k even, fed through the trait below the capacity of C122 (fewer than 2^32 items): probability at most 2*exp(-eps^2*m*k*B/4), B the buffer size; for m RCSketch2 with parameter k: at most 2*exp(-m*(k*eps)^2/6).","all numbers of members, histories of add and add_buffer of non-NaN items, query points x, eps, tie orders; probabilities over the independent coins of all members; nested wrappers allowed","C73 and C74 bound the variance only, so Chebyshev gives polynomial tails; whether averaging really makes large errors exponentially rare depends on the joint distribution over all coins of all members, which sampling cannot establish for probabilities of this size.",[MD+":est_quantile_at_value",MD+":add_buffer",RC+":insert_at_rc",RC2+":compress"])
p("Splitting a batch over m sketches in a ParallelDigest also multiplies the exponent of the tail","Exact arithmetic. If the i-th member of a ParallelDigest, after its share of the history, answers est_quantile_at_value(x) with a whole number of n_i-ths whose deviation from R_i has exponential moments no larger than those of V_i fair signs, then the ParallelDigest counts the sum of the n_i, does not panic, and its answer concentrates around sum R_i / sum n_i with sum V_i signs. In particular for members RCSketch::new(n,k), k even, all fed, no share longer than s (below the capacity, fewer than 2^32): an answer is off by eps or more with probability at most 2*exp(-eps^2*(N/s)*k*B/4); for RCSketch2: at most 2*exp(-(N/s)*(k*eps)^2/6). With equal shares N/s is the number of members: as accurate as a MultiDigest of that many sketches each of which sees all items.","all numbers of members, histories of non-empty batches and single non-NaN items, shares, query points x, eps, tie orders; probabilities over the independent coins of all members","How a batch is cut into shares and how the shares' random errors add up decides the tail; tests run one split with one seed and cannot see probabilities.",[PD+":add_buffer",PD+":est_quantile_at_value",RC+":insert_at_rc",RC2+":compress"])
p("RCSketch rank errors relative to the rank have exponentially small tails","With fair coins, an even section size k, default compaction, at most input_length items and no fast insertions, interpolate_rank(x) of an RCSketch is off by more than e times the true rank of x (the number of items <= x, not the number of items) with probability at most 2*exp(-e^2*k*buffer_size/32) + ceil(log2(input_length/k))*exp(-k*buffer_size/32), for every x, however small its rank. With fast insertions in any mixture k*buffer_size is replaced by buffer_size.","all sequences of insertion calls, parameters, items, x, error levels e >= 0","This is the guarantee relative-error sketches are used for. It is about ranks of any size, adversarial orders and probabilities far too small to observe; the variance bound of C92 only gives 2/(k*e)^2.",[RC+":insert_at_rc",RC+":compact",RC+":interpolate_rank"])
p("All quantiles of an RCSketch have small relative error at the same time","Under the conditions of C163 (no fast insertions), for 0 <= e <= 1 and any m with (1+e)^m >= N, N the number of items: except with probability at most 2*(m+1) times the bound of C163, every interpolate_rank(x), for all x at once, is off by at most 3*e times the rank of x, and every est_value_at_quantile(q), for all q at once, returns one of the items such that (1-3e) times the number of items below it is at most q*N and (1+3e) times the number of items not above it is at least q*N (counts exactly representable).","all sequences of insertion calls, parameters, items, error levels, and all queries simultaneously","No finite set of queries covers all x and q, and the failure probability is too small to be seen in repeated runs.",[RC+":interpolate_rank",RC+":est_value_at_quantile",RC+":compact"])
p("RCSketch2 rank errors relative to the rank have exponentially small tails","With fair coins, 264 <= k < 2^24, default compaction, fewer than 2^32 items and default and fast insertions in any mixture, interpolate_rank(x) of an RCSketch2 is off by more than e times the true rank of x (the number of items <= x, not the number of items) with probability at most 2*exp(-3*e^2*k/16) + 22*exp(-3*k/16), for every x, however small its rank; section sizes may be those of exact arithmetic or the f32 ones of the code.","all sequences of insertion calls, k, items, x, error levels e >= 0","Relative-error sketches are used for this guarantee. It is about ranks of any size, adversarial orders and probabilities far too small to observe; the variance bound of C100 only gives 4/(k*e^2).",[RC2+":insert_batch",RC2+":compact_buffer",RC2+":interpolate_rank"])
p("All quantiles of an RCSketch2 have small relative error at the same time","Under the conditions of C165, for 0 <= e <= 1 and any m with (1+e)^m >= N, N the number of items: except with probability at most 2*(m+1) times the bound of C165, every interpolate_rank(x), for all x at once, is off by at most 3*e times the rank of x, and every est_value_at_quantile(q), for all q at once, returns one of the items such that (1-3e) times the number of items below it is at most q*N and (1+3e) times the number of items not above it is at least (1-3e)*q*N (counts up to 2N exactly representable).","all sequences of insertion calls, k, items, error levels, and all queries simultaneously","No finite set of queries covers all x and q, and the failure probability is too small to be seen in repeated runs.",[RC2+":interpolate_rank",RC2+":est_value_at_quantile",RC2+":compact_buffer"])
p("All answers of a SymDigest of relative-error sketches are accurate towards both ends at the same time","A SymDigest of two RCSketches new(n, k), k even, is given N items, 1 <= N <= n, with fair coins. For 0 <= e <= 1/9 and any m with (1+e)^m >= N, except with probability at most 4*(m+1)*(2*exp(-e^2*k*B/32) + L*exp(-k*B/32)), B the buffer size and L = ceil(log2(n/k)): every est_quantile_at_value(x), for all x at once, is, in ranks, within 6*e*min(#items <= x, #items >= x) of a number between #items < x and #items <= x. Except with that probability every est_value_at_quantile(q), for all q < 1/2 at once, is an item v with (1-3e)*#(items < v) <= q*N <= (1+3e)*#(items <= v), and for all q > 1/2 an item with (1-3e)*#(items > v) <= (1-q)*N <= (1+3e)*#(items >= v). For two RCSketch2s (264 <= k < 2^24, fewer than 2^32 items) the same holds with probability 4*(m+1)*(2*exp(-3*e^2*k/16) + 22*exp(-3*k/16)), the target of value queries reduced by the factor 1-3e. Exact arithmetic.","all histories of insertions, parameters, items, error levels, and all queries simultaneously; two independent sets of coins","Accuracy at both ends for all queries at once is what the wrapper is for; it joins two randomised sketches and a comparison of their answers, and the failure probability is too small to observe.",[SD+":est_quantile_at_value",SD+":est_value_at_quantile",RC+":interpolate_rank",RC2+":interpolate_rank"])
p("MultiDigest and ParallelDigest keep the relative accuracy of their sketches for all queries at the same time","If with probability at least 1 - P each member of a MultiDigest answers every est_quantile_at_value(x), for all x at once, within 3*e*#(items <= x) ranks, then with probability at least 1 - m*P so does the MultiDigest of m members. If each member of a ParallelDigest does so on its non-empty share, the ParallelDigest does so on all items with probability at least 1 - m*P: the errors of the shares do not add up beyond the fraction 3*e of the total rank. For m RCSketches new(n, k), k even, 0 <= e <= 1/9, (1+e)^j >= n (at most n items per sketch), P = 2*(j+1)*(2*exp(-e^2*k*B/32) + L*exp(-k*B/32)); for RCSketch2 (264 <= k < 2^24) P = 2*(j+1)*(2*exp(-3*e^2*k/16) + 22*exp(-3*k/16)). For finite items est_value_at_quantile(q) of the MultiDigest, for all q in [0,1] at once, is a number v with (1-3e)*#(items < v) <= q*N <= (1+3e)*#(items <= v) (RCSketch2: target reduced by the factor 1-3e). est_value_at_quantile(q) of the ParallelDigest of finite items, for all q in [0,1] at once, is a number v between the smallest item lo and the largest hi with q*N <= (1+3e)*#(items <= v) and (1-3e)*#(items < s) <= q*N for some s <= v with v - s <= (|lo|+|hi|)/10^6. Exact arithmetic.","all histories of insertions, numbers of members, parameters, items, error levels, and all queries simultaneously; independent coins of the members","Sharding a stream over sketches is only useful if the tail accuracy of the parts carries over to the whole; the failure event is too rare to sample, and it concerns all queries at once.",[MD+":est_quantile_at_value",MD+":est_value_at_quantile",PD+":add_buffer",PD+":est_quantile_at_value", PD+":est_value_at_quantile",RC+":interpolate_rank",RC2+":interpolate_rank"])
p("Nested wrappers keep the relative accuracy of the sketches inside","Say a digest is (c, P)-sure if it surely counts every item c times and, with probability at least 1 - P, answers all est_quantile_at_value(x) at once within 3*e*#(items <= x) ranks. A MultiDigest of m (c, P)-sure digests is (m*c, m*P)-sure; a ParallelDigest of m digests that are (c, P)-sure on their non-empty shares is (c, m*P)-sure; a SymDigest of two (c, P)-sure digests answers all quantile queries at once within 6*e*min(#items <= x, #items >= x) ranks with probability at least 1 - 2*P. An RCSketch (even k, declared length) or RCSketch2 is (1, P)-sure with the P of C164 or C166, so the wrappers may be nested in any order and depth. The members of a ParallelDigest must count alike: with MultiDigests of one and of three exact digests the answer is wrong. Exact arithmetic.","all nestings, histories of insertions, numbers of members, parameters, items, error levels, and all queries simultaneously; independent coins","Nesting depth and composition are unbounded; the guarantee is a probability over all coins of all sketches and over all queries at once.",[MD+":est_quantile_at_value",MD+":count",PD+":add_buffer",PD+":est_quantile_at_value",SD+":est_quantile_at_value"])
p("BufferedDigest keeps the relative accuracy of the sketch inside, for all queries at once","A BufferedDigest of any capacity except 0 around an RCSketch (even k, declared length) or an RCSketch2, fed any insertions and then flushed (every query starts with that flush), surely has an empty buffer and counts every item once, and with the failure probability of the bare sketch (C164, C166), not more, it answers all est_quantile_at_value(x) at once within 3*e*#(items <= x) ranks. With the same probability est_value_at_quantile(q), for all q in [0,1] at once, returns an item v with (1-3e)*#(items < v) <= q*N <= (1+3e)*#(items <= v) (RCSketch2: q*N reduced by the factor 1-3e in the second inequality). The same holds around any digest whose guarantee depends only on the items and for which adding an empty buffer changes nothing (a ParallelDigest is not one: C52). Exact arithmetic.","all capacities except 0, histories of insertions (single and batch), parameters, items, error levels, and all queries simultaneously; independent coins","Buffering regroups the insertions in a way that depends on the capacity and so changes which coins the sketch draws; the guarantee is a probability over all coins and all queries.",[BD+":add",BD+":add_buffer",BD+":flush",BD+":est_quantile_at_value",BD+":est_value_at_quantile",BD+":count"])
p("ParTDigest does not depend on unit and origin","Replace every item x, and every argument of a quantile query, of a history of calls of a ParTDigest by a*x + b with a > 0 (all items finite and in range before and after). Then est_quantile_at_value(a*x + b) afterwards is est_quantile_at_value(x) of the original history, coin for coin and panic for panic. est_value_at_quantile(q) is shifted by b if a = 1, and is transformed to a*v + b for any a > 0 unless the target falls into the right half of the last centroid without being in the last unit of weight (there the code adds a number without unit to the maximum; a witness shows that the exception is needed). Exact arithmetic.","all histories of insertions, explicit flushes and quantile queries; all thread counts, capacities, scale functions, compression factors; all a > 0, b","A relation between all pairs of executions on different data, including chunking, the digests of the chunks and the overwriting of the limits at each flush; tests compare single runs.",[PT+":flush",PT+":add",PT+":add_buffer",PT+":est_quantile_at_value",PT+":est_value_at_quantile"])
p("No nesting of digests depends on unit and origin in its quantile answers","Take any nesting of BufferedDigest, SymDigest, MultiDigest (members of different types included) and ParallelDigest around TDigest, ParTDigest, RCSketch, RCSketch2 or LinearDigest. Replace every item x, and every argument of a quantile query, of a history by a*x + b with a > 0 (items finite and in range before and after). Then est_quantile_at_value(a*x + b) and count() afterwards are est_quantile_at_value(x) and count() of the original history, coin for coin and panic for panic. This does not extend to value queries: the search of a ParallelDigest stops relative to the size of the values, and finds the median of -1, 0, 1 up to 1/100000 but answers with the largest item when 10^7 is added to all of them. Exact arithmetic.","all nestings, histories of insertions and quantile queries, parameters, scale functions, a > 0, b","A relation between all pairs of executions on different data, closed under arbitrary nesting.",[BD+":est_quantile_at_value",SD+":est_quantile_at_value",MD+":est_quantile_at_value",PD+":est_quantile_at_value",PD+":est_value_at_quantile",TD+":est_quantile_at_value",PT+":est_quantile_at_value",RC+":est_quantile_at_value",RC2+":est_quantile_at_value",LD+":est_quantile_at_value"])
p("Value queries of nested digests around sketches move with unit and origin","Take any nesting of BufferedDigest, SymDigest and MultiDigest (members of different types included) around RCSketch, RCSketch2 or LinearDigest. Replace every item x, and every argument of a quantile query, of a history by a*x + b with a > 0 (items finite and in range before and after); value queries of the history keep their arguments. Then est_value_at_quantile(q) afterwards is a*v + b, where v is the answer after the original history, and quantile queries and count() are unchanged, coin for coin and panic for panic. Exact arithmetic.","all nestings, histories of insertions and queries of both kinds, parameters, a > 0, b, q","A relation between all pairs of executions on different data, closed under arbitrary nesting.",[BD+":est_value_at_quantile",SD+":est_value_at_quantile",MD+":est_value_at_quantile",RC+":est_value_at_quantile",RC2+":est_value_at_quantile",LD+":est_value_at_quantile"])
p("Asking again: queries of a buffered TDigest or ParTDigest do not disturb each other","A query of a BufferedDigest runs a merge pass of the TDigest inside even if nothing has arrived since the last one. In exact arithmetic such a pass changes nothing, provided no two centroids have the same mean: after any history of insertions add_buffer(&[]) leaves a TDigest exactly as it is, whatever its scale function and compression factor; and once a BufferedDigest around a TDigest has answered a question, any number of further questions leaves it as it is and the same question gets the same answer. The same holds for a ParTDigest without the proviso and with any rounding, since its flush does nothing when nothing is pending. For the BufferedDigest the proviso is needed, since the sort is unstable and a pass without new items may then merge further.","all histories, scale functions, compression factors, capacities, sequences of queries, sort outcomes","A fixed-point property of the merge pass for every scale function and every reachable digest.",[TD+":add_centroid_buffer",BD+":flush",BD+":est_quantile_at_value",BD+":est_value_at_quantile"])
p("Asking again, in nested digests: queries do not disturb each other","The query methods take &mut self. For TDigest, ParTDigest, RCSketch and RCSketch2, for Box<dyn Digest> over them, for every MultiDigest and SymDigest built from these to any depth, and for BufferedDigests around RCSketch, RCSketch2 and MultiDigests and SymDigests of them: once a question has been answered, any number of further questions of either kind that are answered leaves the digest exactly as it is, and the first question is then answered, without a panic, with the same result. This holds in every state, for non-finite contents and arguments too. LinearDigest is not in the list, since its value query sorts the stored values in place.","all states, nestings, sequences of queries, arguments, sort outcomes; rounded arithmetic included","A statement about every nesting of the generic types and every sequence of queries.",[MD+":est_quantile_at_value",MD+":est_value_at_quantile",SD+":est_quantile_at_value",SD+":est_value_at_quantile",RC+":est_value_at_quantile"])
EXACT="C25 C27 C28 C34 C35 C36 C37 C38 C39 C40 C41 C43 C44 C45 C46 C50 C53 C54 C55 C69 C70 C75 C76 C82 C83 C84 C85 C95 C102 C103 C108 C109 C110 C111 C113 C114 C119 C128 C135 C137 C139 C140 C141 C142 C143 C144 C145 C146 C147 C148 C149 C150 C151 C152 C153 C154 C155 C161 C162 C167 C168 C169 C170 C171 C172 C173 C174".split()
for x in P:
    if x["id"] in EXACT: x["quantifier"]+="; exact arithmetic"
with open("/verif/properties.jsonl","w") as f:
    for x in P: f.write(json.dumps(x)+"\n")
print(len(P))
