# Formal model of `approximate-quantiles` in Lean 4

## Layout
* `lean/Verif/Base/` – the effect monad `Prog` (return, panic, fair coin) and the number model `Fl`.
* `lean/Verif/Model/` – the code, function by function; every definition cites `/repo` file and lines.
* `lean/Verif/Spec/` – small independent specifications (true rank, order statistic, runs of a list, ...).
* `lean/Verif/Proofs/` – lemmas.
* `lean/Verif/Props/` – the property theorems `C01_…` and non-vacuity examples.

## Number model
`Fl K` = NaN | -inf | finite `x : K` | +inf for an arbitrary linearly ordered field `K` (ℚ for executable
checks, ℝ for the scale functions). Arithmetic on finite values computes the exact result in `K` and passes it
through a rounding function `FloatFmt.rnd : K → Fl K`, so IEEE behaviour of NaN, infinities and division by zero is
explicit. Theorems are stated for
* every `rnd` whatsoever (purely structural facts),
* every monotone `rnd` fixing 0, 1/2, 1, 2 (`FloatFmt.Mono`), which covers IEEE rounding,
* every monotone `rnd` for which doubling of representable numbers is exact unless it overflows (`FloatFmt.Binary`), or
* exact arithmetic only (`FloatFmt.Exact`: `rnd x = x`), for conservation laws of the t-digest, which are false under
  rounding.
Signed zero is not modelled (0 and -0 identified). `usize`/`u64` are unbounded naturals, except where the code's
behaviour depends on the width: subtraction underflow, `u32` counters, the `i32` shift `1 << i`, `to_usize` range: these
are explicit panics (debug-assertion semantics).

## Effects
`Prog α` is the free monad with panics and fair coin flips: `ret a | fail e | flip (Bool → Prog α)`. Every random bit of the
code is a `flip`; every panic is a `fail`. "For all random choices" is the recursively defined predicate `Always`
(every leaf is a value satisfying …, no leaf is a panic) or `Partially` (every leaf that is a value satisfies …).
Expectation over fair coins is `Prog.exp`. Loops whose termination is not structural take fuel; running out
is `fail .fuel`, and the no-panic theorems also show this does not happen.

## Plan per property
| id | modelled | proof |
|---|---|---|
| C01–C03 | `LinearDigest` with both queries | sortedness of the model's sort is a permutation + unique sorted list; induction on history |
| C04 | `weighted_average` over `Fl` with arbitrary rounding | case analysis |
| C05–C17 | `RCSketch` complete, recursion with fuel, coins as `flip` | one induction principle over the cascade (`batch`/`fill`/`drain`), then closure conditions per property |
| C18–C24 | `RCSketch2` complete; section size as a parameter `sec`, instances exact and `f32` (division by √2) | invariants over `compress` loop |
| C25–C28 | `KeyedSumTree` as an inductive tree | BST invariant, refinement to sorted association list; C27 is false: stale sums after delete, counterexample + partial |
| C29–C33, C37 | `TDigest::add_centroid_buffer`, arbitrary scale functions, arbitrary unstable sort | refinement to "consecutive runs of the sorted list" |
| C34–C36, C38, C39, C44 | both queries | piecewise analysis; C35/C36/C44 false as stated (tail formulas): counterexamples + partial |
| C40 | k0 with the merge loop | telescoping of the scale function over pairs of neighbours |
| C41–C43 | `add_cluster`, `find_closest_centroids`, `add_cluster_tree` incl. binary search | induction on the cluster list |
| C45–C46 | `ParTDigest` | C46 false (flush overwrites min/max): counterexample + partial |
| C47–C48 | `BufferedDigest` over an arbitrary digest | refinement to concatenation of inputs |
| C49–C52 | `ParallelDigest` | chunk arithmetic; bisection invariant; C52 false (panic) |
| C53–C56 | `SymDigest`, `MultiDigest` | algebra; C56 false for ≥ 2 members |
| C57–C58 | scale functions over ℝ (and `k0` over any field) | real analysis from Mathlib |
| C59 | `opt_accuracy_parameter` search loop, test runs as an oracle | loop invariant |
| C60 | NaN branches of the sorts | case analysis |
| C61–C63 | RCSketch error under fair coins | expectation of the squared error over `Prog.exp`; martingale-style orthogonality of compactions; Chebyshev |
| C64–C66 | RCSketch2 | C64 false (odd part of a compaction is dropped or doubled): counterexample; C65 bisimulation; C66 as C61 |
| C67–C69 | clustering | `find_closest_centroids` via partition points; centroid sum algebra; C69 false for the tree variant (passes a mean as a weight) |
| C70–C71 | `ParTDigest` | invariant over flushes |
| C72 | `BufferedDigest` | trace of the batches the wrapped digest receives |
| C73–C74 | `MultiDigest` | product of independent `Prog`s; second moments |
| C75–C76 | `SymDigest`, `ParallelDigest` over `LinearDigest` | rank algebra |
| C77–C80 | `TDigest` size with k1, k2, k2_asym, k2n, k3 | telescoping of the scale function over pairs of neighbours; C79 false (`inv_k1` wraps around) |
| C81–C82 | `sample_digest_accuracy`, generators | induction |
| C83–C84 | one batch, queries | centroids are means of blocks of the sorted data; piecewise interpolation; C84 false in the right tail |
| C85 | any history, k0 | false: adversarial sequence constructed for every error; partial for batches arriving outside the earlier data |
| C86 | one batch, k2/k3/k2n | as C83, with the block weight bounded by the scale function's slope |
| C87 | `TDigest` insertion in rounding arithmetic | invariant: means in [A,B], natural weights; `Spec.Roomy` says what the arithmetic must offer, proved for f64 and f32 |
| C88 | both `TDigest` queries in rounding arithmetic | interval arguments from monotone rounding; the value search invariant uses exact half-integers |
| C89 | `ParallelDigest` queries under every rayon schedule | model with an explicit cut tree (`Split`); exact: sums agree; rounding: intervals, error induction over the tree |
| C90 | `ParallelDigest` value search in rounding arithmetic | bracket invariant with relative error of the midpoint (`Spec.SearchRoom`), proved for f64 |
| C91 | `MultiDigest` in rounding arithmetic | error induction over the sum (`Spec.RelErr`), proved for f64 and f32 |
| C92 | `RCSketch` | per level `h` the estimate `U_h` that ignores compactions from `h` up is a martingale; potential argument on the bits of the compaction counters: an odd compaction costs `k` of the items `≤ x`; recursion over the levels |
| C93 | `owned_size` of all seven types | footprint defined on types with `Vec` capacities as data (`Spec/Memory`); exact for four types, exact deviation for three |
| C94 | `RCSketch` value queries | an answer that is off implies that the estimated rank of one of two fixed items is off; C62, C63, C92 and Chebyshev's inequality at these items |
| C95 | `SymDigest` of two `RCSketch`es | the two sides are independent; the a-priori bound C63 decides the choice away from the middle; C92 and C94 on each side |
| C96 | `ParTDigest` in floating point | the flush invariant (exact weight, means within the limits of magnitude) kept by the chunk digests (C87) and by the merge into the inner digest |
| C97 | `SymDigest` in floating point | monotone rounding of the average decides the choice up to one half; the sides are independent, so C88 (TDigest) and C63/C94 (RCSketch) apply to each. C53 does not carry over to the last bit (`C53_not_symmetric_with_rounding`) |
| C98 | `RCSketch2`, section sizes in `f32` | weight of level `h` at most `N(1+1/w)^h`, a compaction at level `h` needs `6w` items: geometric sums of C21 and C66; the sizes `f32Sec` bounded below by rounding analysis |
| C99 | `RCSketch2` value queries | as C94, with the total stored weight possibly short of `N` (C64): twice the error above |
| C100 | `RCSketch2` | as C92 with price 1: a level that moves items `≤ x` keeps `3 sec(0)` of them, so `odd ≤ moved ≤ X²/(4·3 sec(0))`; the finer price of C92 does not carry over, since the compaction index is counted from half the current length of the buffer, which varies |
| C101 | `TDigest::add_cluster`, `weight_left`, `k_size` | the choice loop returns a passing candidate of least mass or reports that none passes (`chooseIndex_best`); with C67's range lemma the nearest centroids are all candidates; found missing by mutation testing (`<` against `<=` in `weight_left` left every theorem provable) |
| C102 | `ParallelDigest` of randomised digests | each member sees its own column of the chunks (`Spec.share`), so the expectation factors member by member (`feedAll_exp`); the squared errors add up because the members are independent and unbiased; shares add up to the data (`sum_share`); `Digest` instance for `RCSketch2` added to the model |
| C103 | `MultiDigest` of randomised digests, nesting | C73 plus the sure part (count, no panic) in the form of `Spec.Estimates`, which is both hypothesis and conclusion of the wrapper theorems, so they compose |
| C104 | clustering in floating point | the invariant of C87 (`RInv`) carried through `add_cluster` and `add_cluster_tree`: a middle state `RMid` with the limits already widened, merges kept in range by monotone rounding between exact multiples of the bounds; the tree only matters through its contents |
| C105 | KeyedSumTree in floating point | counts up to `N` are exact, so every stored sum is the exact natural number (`WNat`), and the exact proofs of C25/C27 carry over; for `closest_keys` a symmetric monotone rounding keeps computed distances in the order of the exact ones, and two computed distances that differ by 0 are not 0.001 apart |
| C106 | ParTDigest with explicit flushes | a flush changes the digest as a quantile query does, so every call history is matched by a history of ordinary operations and C45/C71/C96 apply; finding: `total_weight` leaves out the pending items, unlike `count` |
| C107 | Buffering an RCSketch or RCSketch2 | C16 and C65 make `add_buffer` literally equal (as coin trees) to single adds, so every history equals its flat form; a flat history is determined by its items and the items before each query; C47 turns a BufferedDigest history into a history of the wrapped digest with the same stream |
| C108 | TDigest accuracy after any number of batches | one merge pass lowers the weight below `x` and raises the weight up to `x` by at most one run of several members (only the run that straddles `x` matters); centroids only grow, so the heaviest one in the end bounds every pass; the query is within half a centroid of the weights of the centroids. Complements the negative results of C85 (single adds) and C84 (tail) |
| C109 | ParTDigest accuracy with k0 | chunk stage and merge stage of a flush are merge passes in the sense of C108; the overwritten limits (C46) do not matter for the argument; the number of flushes is at most the flushing calls plus n / (capacity + 1) |
| C110 | Calls a BufferedDigest makes; buffered TDigest accuracy | the simulation of C47 also counts: a batch takes more than capacity items, a query one call (even with nothing pending, which re-merges the centroids); then C108 for k0 over interleaved queries |
| C111 | When add_cluster_tree panics | partial (false). One cluster: the chosen key is a neighbour of the cluster because keys are further apart than the tolerance, so the merged mean lies strictly between them. Large values under k0: the size test always fails, so every cluster is inserted; induction over the clusters |
| C112 | Sketches only compare items | A relation between programs (same coins, same failures, related results) is carried through sorting, compaction, insertion and queries; states are related when their buffers are related item by item. Average neighbour: concrete witness. |
| C113 | TDigest does not depend on unit and origin | The relation of C112 between programs, with states related when centroids correspond with affinely transformed means; merging commutes because the sum becomes a*sum + b*weight; queries only use comparisons and ratios of differences. |
| C114 | TDigest and infinite items | Invariant: every mean is finite or +inf, weights positive, max = +inf implies last mean = +inf; each branch of the query divides by a positive number or by +inf. No sortedness of the centroids is needed: below the first, above the last, or some neighbouring pair brackets the value. |
| C115 | Random data generators and weight zero | Generators as functions of the stream of samples; rounding is monotone and fixes 0, -1 and 1001; totals from the invariant of C114; a run of weight zero is closed with mean 0/0, and sorting with a NaN panics. |
| C116 | Order of items between compactions and within a batch is irrelevant | relation between sketches whose levels are permutations of each other; completeness of the modelled unstable sort |
| C117 | Size and resolution of a TDigest in floating point (k0) | error analysis of one cut: the rounded size limit differs from q + 2/δ by at most 40u, then the counting argument of C77 with the widened step |
| C118 | Rank accuracy of a TDigest in floating point (k0) | each pass writes the new centroids as clusters of runs of the old ones with a mean off by at most (uX + eta)(M + 1); ranks move by at most M per pass and the mean shift per pass; the query adds one interpolation |
| C119 | TDigest value and quantile queries are mutually consistent | induction over neighbouring centroids: the weight below x and the loop of the value query meet in the same gap |
| C120 | Accuracy of TDigest value queries in floating point (k0) | the rounded target selects two neighbours whose cumulative weights enclose it; the run decomposition of C118 turns this into ranks of the data; the first tail is bounded by its interpolation with 12 roundings |
| C121 | The buffer size of an RCSketch as computed in floating point | n/k lies between powers of two, so does its rounding, hence the rounded-up logarithm is off by at most one; no function reads input_length, so a sketch with another size is one for another length; absence of panics from the exact capacity (C122), which exceeds n for either size |
| C122 | Exactly how many items an RCSketch takes | invariant: what has left a level is at least k times the sections removed by its first c compactions (exactly, at the bottom level without fast compaction); the sum of trailing ones has a closed form at 2^m - 1; levels bounded by initial levels plus stored items, so the model's fuel suffices |
| C123 | Accuracy of a buffered TDigest in floating point under mixed use | replay the wrapper's history on the inner digest (history_cost), drop the queries, which return and change nothing (RInv.answers), and use C118/C120 on the batches |
| C124 | ParallelDigest's chunk length computed in f64 loses no item | a quotient above an integer exceeds it by at least 1/digests, which is more than the rounding error for fewer than 2^53 items; monotone rounding gives the other side |
| C125 | Accuracy of a ParTDigest in floating point under mixed use | closeness of a digest to its items (shifted by rounding, misplaced by at most half a centroid) composes over chunk digest, merge and later merges; the k0 size limit of C117 bounds each misplacement |
| C126 | ParTDigest memory is bounded by the compression factor and the capacity | the centroids after a merge are those of a new digest given the batch and the old centroids at once (centroids_as_new), so the one-batch bounds of C40, C77 and C78 apply at every flush |
| C127 | A TDigest that has not merged anything is exact in floating point | Invariant Plain: fewer centroids than items, or the sorted items themselves with exact min and max; the loops then compute on integers and half-integers, which are exact; the differences in the value query are exact by Sterbenz's lemma (CloseExact, proved for IEEE formats). |
| C128 | SymDigest of RCSketch2s is accurate at both ends | sides are independent runs (SymDigest.exp_sides), each with the relative error of C100; outside the middle the choice between the sides is forced by the sure bound of C98 |
| C129 | A buffered TDigest of few items is exact in floating point | BufferedDigest.flush_batches reduces to an unbuffered digest fed some splitting of the items into batches; C127 holds for every splitting. |
| C130 | insert_at_rc and insert_at_rc_batch insert weighted items | The level-general step invariants (Closed, Progress, Super) are started with a frame at level h instead of 0; the list the invariants refer to contains an item of level h 2^h times. Capacity: items entering at level h only relieve the levels below. Flow: an item at level h counts as 2^(h-j) items that passed level j. |
| C131 | RCSketches can be merged level by level | For a fixed b the merge is a history of calls on a, so C130 applies conditionally on b; then the law of total expectation, and orthogonality of the two errors for the mean square. |
| C132 | RCSketch stays unbiased and accurate beyond its declared length | Ordinary histories are a special case of the histories of C130, whose invariants only use the capacity. |
| C133 | RCSketches can be merged in any shape | The sketch at the root of the tree is distributed like one on which a random history of ordinary and level-wise calls (C130) is run; conditioning on that history, errors of independent sketches add up in the mean square. |
| C134 | Every public call of RCSketch2 may be mixed with insertions | The history invariants of C18-C23 are kept by an unconditional compress; grow adds an empty level, which no invariant sees except the level count. |
| C135 | TDigests built separately may be merged in any shape | The centroids of a merged digest stand for what it was given (weight, mass, closure of weights, bounds); the drift lemma of C108 composes along the tree. |
| C136 | Accuracy of merged TDigests in floating point | The drift relation CloseTo (values moved by s, ranks by E) composes along the tree: the shift grows with the depth, the rank error with the passes. |
| C137 | Accuracy towards both ends survives any number of batches and merges | Every pass replaces runs of centroids by their average; a run of weight w has at least w/c on either side, so weights counted from an end change by at most 1+c; factors multiply along the tree. |
| C138 | Value and quantile queries of merged and of overfull RCSketches are accurate | Two fixed items decide whether the answer is off (C94); Chebyshev with the mean squared error of C133; at most 31 levels since level h+1 opens only when 2^h*buffer_size weight has arrived or a merged sketch had it. |
| C139 | Rank error of digests with mixed scale functions through any batches and merges | One step of every scale function takes at most a fraction c of the weight (for k1: sin is 1-Lipschitz); the k0 invariant of C135 with c in place of 2/delta, per digest. |
| C140 | With k1 the error shrinks like the square root of the distance from the end | With a/n = sin^2 alpha one step of k1 is an angle of at most pi/delta, so a run of weight w has w <= 2 tau sqrt(a) + tau^2 with tau = (pi/delta) sqrt(n), from either end; at most two neighbouring runs contain the position of x. |
| C141 | The square-root law of k1 survives any number of batches and merges | Every pass moves the square root of the weight on either side of a point by at most tau = (pi/delta) sqrt(W of the digest); offsets of merged digests combine by Minkowski's inequality, which keeps the factor sqrt(W) of the union. |
| C142 | Rank error of a ParTDigest with any of k0, k1, k2, k3 | Any statement kept by one pass with one more unit (structure Layered) holds after a history with as many units as passes; here: ranks moved by at most c n. |
| C143 | A ParTDigest with k2 or k3 stays accurate towards both ends | Layered with RelNear: a pass multiplies ranks by at most r, counted from either end; concatenating chunk digests keeps the factor. |
| C144 | The square-root law of k1 for a ParTDigest | Layered with RootNear: a pass moves square roots of ranks by at most (pi/delta) sqrt(n); chunk digests combine by Minkowski's inequality. |
| C145 | k2_asym is accurate towards the lower end, through merges | LimitLow: a cluster of several items ends at most at r times its start, because one step of k2_asym multiplies the odds of half the quantile by at most r; LowNear composes over passes and appends. |
| C146 | k2_asym in a ParTDigest: accurate towards the lower end after any history | Layered with LowNear, as C142-C144. |
| C147 | A SymDigest of two TDigests with k2_asym is accurate at both ends | C145_history for both sides, mirror lemmas for ranks and weights, and the selection logic of SymDigest: outside E ranks of the median the side nearer to the end is selected. |
| C148 | Rank errors of the sub-digests of a ParallelDigest add up | The answer times N is the sum of the ranks of the members (estQuantile_sum); counts of shares add up (sum_share); value queries by C51's search with the monotone error bound; TDigests by td_member (Layered invariants of C142). |
| C149 | A ParallelDigest of TDigests with k2 or k3 keeps the relative accuracy at both ends | Relative nearness of each member (C137, C143) with the bound for N items, summed over the members through estQuantile_sum and the counts of the shares from below and from above. |
| C150 | Rank error of a buffered TDigest with any of k0, k1, k2, k3 | Invariant of the buffer (items delivered, batches, flushing calls) with the Layered invariants of C142; each batch has more than capacity items unless a call forced it. |
| C151 | A buffered TDigest with k2 or k3 keeps relative accuracy at both ends | As C150 with the relative nearness of C143. |
| C152 | A buffered TDigest with k1 keeps square-root accuracy | As C150 with the square-root nearness of C144. |
| C153 | Rank errors of the members of a MultiDigest average | Members of a MultiDigest behave as alone (execAll_forall from execAll_members); RankWithin is linear in the rank and each half of it is monotone in the value, and the mean lies between the smallest and the largest answer; TDigests by td_member (Layered invariants of C142). |
| C154 | A SymDigest is as accurate as its sides | The answer lies between the two sides (C54); mirrored ranks (RankWithin.mirror); value queries by rankWithin_between at the median; TDigests by td_frac_member. |
| C155 | Rank error of TDigests with any scale function, k2n included, pass by pass | step_sinv / run_sinv: as run_finv of C139 with a bound G(n) per pass instead of c*n; at weight n k2n is k2 with the compression factor d/10*log10(n)^2 (sizeLimit_k2n). |
| C156 | Shuffling before building keeps searches in a KeyedSumTree short | Model/KSTCost: the loops with a counter, C156_counters removes it again. A tree built from k :: l has the trees of the smaller and of the larger keys of l below k (insAll_split), so the path follows a recursion on lists; averages over orders are split by the first key (permutations_head) and keys that do not matter are dropped (mean_filter); the recursion is solved by H_a + H_b. |
| C157 | RCSketch rank errors have exponentially small tails | supermartingale a^error / cosh(log a)^(sum of 4^h over compactions); compactions are bounded surely by the flow argument of C61; merges multiply exponential moments; limit over rational bases |
| C158 | All quantiles of an RCSketch are accurate at the same time | pivot items (largest of rank at most (j+1)N/m, smallest of rank above jN/m), monotonicity, union bound over 2m one-sided events of C157 |
| C159 | RCSketch2 rank errors have exponentially small tails | supermartingale a^error / cosh(log a)^(sum of 4^h over compactions) through one compress pass; sure bound on the compactions from C98; limit over rational bases |
| C160 | All quantiles of an RCSketch2 are accurate at the same time | pivot items per strip of N/m ranks, monotonicity, union bound over 2m one-sided events of C159; sides of the value query from C99 |
| C161 | Averaging m independent sketches in a MultiDigest multiplies the exponent of the tail by m | moments of the sum of answers by induction over the members (independence of each member from the rest), tail by Chernoff as in C157 |
| C162 | Splitting a batch over m sketches in a ParallelDigest also multiplies the exponent of the tail | moments of the weighted sum by induction over the members; the shares' lengths and ranks add up (C102); sum of squares of share lengths at most s*N |
| C163 | RCSketch rank errors relative to the rank have exponentially small tails | supermartingale a^(U_h - R) / cosh(log a)^(variance of odd compactions below level h) for every level h; on the event that U_j <= 2R for all j < h that variance is at most 16 R^2/(k B) (price of an odd compaction, C92); union bound over the first level that leaves the event |
| C164 | All quantiles of an RCSketch have small relative error at the same time | pivot items on a geometric grid of ranks, monotonicity, union bound over the events of C163 |
| C165 | RCSketch2 rank errors relative to the rank have exponentially small tails | supermartingale a^(U_d - R) / cosh(log a)^(variance of odd compactions below level d) for every level d; while U_j <= 2R below d that variance is at most 8 R^2/(3 sec(0)) because each compacted level keeps 3 sec(0) of the smallest items; union bound over the first level that leaves the event |
| C166 | All quantiles of an RCSketch2 have small relative error at the same time | pivot items on a geometric grid of ranks, monotonicity, union bound over the events of C165; the total stored weight is the rank of NaN |
| C167 | All answers of a SymDigest of relative-error sketches are accurate towards both ends at the same time | independence of the two sides (SymDigest.exp_sides), union bound over C164/C166 on the items and on their negations; case distinction on the comparison of the two estimates |
| C168 | MultiDigest and ParallelDigest keep the relative accuracy of their sketches for all queries at the same time | the mean (MultiDigest) and the count-weighted sum (ParallelDigest) of accurate answers are accurate, deterministically; union bound over the members by induction with MultiDigest.execAll_exp and ParallelDigest.feedAll_exp; members from C164/C166 |
| C169 | Nested wrappers keep the relative accuracy of the sketches inside | `RelSure` is hypothesis and conclusion of the wrapper theorems, so they compose; C168 for the union bounds, C167 for the two sides |
| C170 | BufferedDigest keeps the relative accuracy of the sketch inside, for all queries at once | `bufferedAnswers_stream` gives one history of insertions of the same items that the flushed digest has run; RelSure of C169 depends on the items only |
| C171 | ParTDigest does not depend on unit and origin | The relation of C113 lifted to the pending buffer, the digests of the chunks (rel_minBy, rel_maxBy for the limits) and the merged digest; limits overwritten by a flush are finite, so the merge needs no range condition |
| C172 | No nesting of digests depends on unit and origin in its quantile answers | A relation between digests kept by insertions with equal quantile answers and counts (`Equi`); each wrapper lifts it, the leaves are C113, C171 and C112; SymDigest uses the relation for b and for -b |
| C173 | Value queries of nested digests around sketches move with unit and origin | The relation of C172 with value answers related by x -> a*x + b; in the mean of a MultiDigest the origin is added once per member and divided away |
| C174 | Asking again: queries of a buffered TDigest or ParTDigest do not disturb each other | Greedy runs closed by the size limit are not joined by a second pass, since the next run is at least as heavy as its first member; then induction over histories with the invariant that the digest was left by a pass |
| C175 | Asking again, in nested digests: queries do not disturb each other | A predicate for digests at rest with two laws (a question leads to rest; a digest at rest is not changed), proved for the digests and carried through the wrappers |

## Trusted base
* The Lean 4.33.0 kernel, and the Mathlib definitions used in statements (`Real.log`, `Real.arcsin`, `List`, `Finset`, ordered fields).
* Axioms: no theorem depends on anything but `propext`, `Classical.choice` and `Quot.sound`. `axioms.txt` lists the output of
  `#print axioms` for every theorem named in `MANIFEST.json` (regenerate with `tools/axioms.sh`). Concrete witnesses are checked by
  `decide +kernel`, i.e. by evaluation in the kernel; neither `native_decide` nor compiled code is trusted.
* That the definitions in `Verif/Base` and `Verif/Model` say what the Rust code does (read by hand; each cites file and lines), and
  that the statements in `Verif/Props` with the definitions in `Verif/Spec` say what `properties.jsonl` says.

## What is modelled
| file in /repo/src | model | remarks |
|---|---|---|
| `rc_sketch/{rc_sketch,compaction_method}.rs` | `Model/Compaction`, `Model/RCSketch`, `Model/RCBuffer` | complete, all compaction methods; the buffer size in exact and in floating-point arithmetic (C121) |
| `rc_sketch/rc_sketch2.rs` | `Model/RCSketch2` | complete; the section size is a parameter `sec`; its `f32` computation is `f32Sec` in `Model/RC2Sections` (see below) |
| `t_digest/centroid.rs`, `traits.rs` | `Model/Centroid`, `Model/Traits` | complete (`OwnedSize` below) |
| `t_digest/t_digest.rs` | `Model/TDigest` | complete except `interpolate_centroids_quantile` (never called) |
| `t_digest/par_t_digest.rs` | `Model/ParTDigest` | complete |
| `t_digest/scale_functions.rs` | `Model/ScaleK0` (any field), `Model/ScaleFns` (ℝ) | all six pairs |
| `buffered_digest.rs`, `parallel_digest.rs`, `sym_digest.rs`, `multi_digest.rs` | same names | complete; wrapped digests arbitrary |
| `traits.rs` (`OwnedSize`) and the `owned_size` of all digests | `Model/OwnedSize` | complete, on a memory view of the structs (their vectors with capacities); `usize` sums do not overflow |
| `util/{keyed_sum_tree,linear_digest,mod}.rs` | `Model/KeyedSumTree` (`Model/KSTCost`: its loops with a counter), `Model/Linear`, `Model/Util`, `Model/Gen` | complete; the random generators take their samples as a parameter |

## Simplifications
* −0 and 0 are identified; there is one NaN. `f64Fmt` and `f32Fmt` (`Spec/F64.lean`) are IEEE double and single precision over ℚ,
  with subnormal numbers, overflow to infinity and round-to-nearest-even; `Proofs/F64` proves them instances of `FloatFmt.Binary`, so
  every theorem for `Mono` or `Binary` arithmetic applies to them. Theorems named `…_f64` spell this out.
* `ln`, `exp`, `asin`, `sin`, `log10`, `powf` are the rounded real functions.
* RCSketch: `new` computes its buffer size with exact arithmetic in `calcBufferSize` and with the arithmetic of the item type and an arbitrary `log2`
  in `calcBufferSizeIn`; C121 relates the two.
* Lengths and counters are unbounded naturals where their overflow needs more than 2^63 items in memory.
* Unstable sorts and shuffles are nondeterministic (`flip`s over all permutations consistent with the ordering; for shuffles all
  permutations, whose probabilities are not modelled), so results about them hold for every sorting algorithm. Equal items are interchangeable except centroids with equal means.
* rayon's `par_iter`/`par_chunks`/`map`/`collect` are modelled by their sequential meaning; closures share no state. `sum` depends on how rayon
  cuts the list; `estQuantileSplit`/`estValueSplit` take the cut tree as an argument (C89, C90), `estQuantileAtValue` is the uncut one.
* `binary_search_by` with NaN keys: the comparison panics as in the code; the path up to the panic is not tracked.
* RCSketch2: the section size is computed in `f32` as `k / sqrt(2)^n`; theorems hold for every `sec`, or for every `sec` with
  `SecOK` (the first five sizes are at least 1, and each of the first four at most twice the next), proved for exact arithmetic and k ≥ 4
  (`realSec_ok`) and for the `f32` arithmetic of the code and 4 ≤ k < 2^24 (`f32Sec_ok`; `sqrt(2)` is the nearest single, divisions round to nearest).
* The `compactions` fields of the sketches and the `log` fields of `RCSketch` and of the levels of `RCSketch2` (items moved by each compaction) are ghosts: no modelled function reads them, and they appear only in the statements of C09, C61 (step 1) and C66, as the number of compactions performed.
* Scale functions passed to `TDigest::new` are pure and total.
* `MultiDigest` of boxed trait objects: members of different types are a sum type.

## Not modelled
The values of `size_of` and the growth of `Vec` capacities (parameters in C93), `shrink_to_fit`, threads (only the order in which rayon sums), the probabilities of random
samples (the generators take the samples as a parameter, C115), benches, examples, plotting.

## Findings: where the code does not do what a user would expect
Each is a theorem (negation with a concrete witness) unless marked otherwise.
* **TDigest**: `min`/`max` can exceed the data in f64 after a second batch (C30), and the centroids can be out of order after one
  (C31_unsorted_with_rounding). Merging items near the largest double overflows; two such merges of opposite sign give NaN, and the next insertion panics (C87). `est_quantile_at_value` is not monotone and jumps in the
  tails (C35). `est_value_at_quantile` right of the middle of the last centroid can return NaN or values far below all data (C36, C84).
  Value queries are not monotone (C44). Fed item by item, a `k0` digest has no rank accuracy at all: for every ε there are
  sequences for which the median is answered with one of the lowest ε·n items (C85). Items `-inf` make quantile queries at finite values
  NaN (items `+inf` do not); both signs together can make a mean NaN and the next insertion panic; value queries can be NaN with `+inf` only (C114).
  Centroids of weight zero get the mean NaN; the next insertion panics (C115).
* `add_cluster`: the size check adds the weight of the existing centroid twice; the centroid list can end up unsorted.
  `add_cluster_tree` passes the merged *mean* to the size check in place of the weight (C69) and panics on duplicate means (C43), on a
  cluster that repeats a mean and fails the size check (adding 100 twice), and sometimes when a merge lands on another key (C111).
  It therefore depends on the unit of measurement, and `add_cluster` on the origin (it merges into the candidate with the smaller
  product of mean and weight); `est_value_at_quantile` depends on the unit right of the middle of the last centroid (C113).
  `find_closest_centroids` compares signed distances, so it returns a nearest centroid only in special cases (C42, C67).
* **scale functions**: `inv_k1` wraps around beyond the last centroid, so the upper tail of a `k1` digest is never merged and its size is
  unbounded (C79). `inv_k2(k2(1))` is NaN (C57).
* **KeyedSumTree**: sums are stale after deletions (C27). The tree is not balanced: keys inserted in increasing order make every search beyond them visit all nodes; only the shuffle in `add_cluster_tree` keeps them short (C156).
* **RCSketch2** loses or invents weight (C64); with k = 1 it panics after 19 items (C19).
* **RCSketch**: weight is conserved for even k only (C08). With `AverageNeighbour` the sum of two neighbours may overflow, and the
  infinity is then stored and returned although all items are finite (C13).
* **LinearDigest**: a value query panics when the number of items is not representable (C01).
* **BufferedDigest**: every query flushes, i.e. calls the wrapped `add_buffer(&[])` when nothing is pending; around a `ParallelDigest` the
  second query therefore panics (`C52_buffered_second_query_panics`).
* **ParTDigest**: `par_chunks(threads)` uses the number of threads as chunk size; 0 threads panic; each flush overwrites `min`/`max`
  with those of the pending buffer (C46).
* **ParallelDigest**: an empty sub-digest turns every quantile answer into NaN and value queries panic; single `add`s feed the first
  sub-digest only (C50); an empty buffer panics (C52); without sub-digests data is dropped silently (C49).
  In f64 the last places of an answer depend on the schedule (C89); the median of {2^1023, 1.5·2^1023} is answered with +inf, a range that
  overflows skips the search, and for items {0, 2^-1074} the search never ends (C90).
  The chunk length is computed in f64, so from 2^53 + 1 items in one call on the last item can be dropped (C124).
* **MultiDigest** reports the number of items times the number of members (C56), so a ParallelDigest of MultiDigests with different numbers of members weights its shares wrongly (C169_unequal_members); in f64 three members that all answer 0.1 give 0.10000000000000002 (C91). **SymDigest** panics when empty (C54).
* **opt_accuracy_parameter** returns `max_param` untested if nothing passes, contrary to its comment; it may loop forever in f64 although
  `epsilon > 0`, and never returns for `epsilon <= 0` (C59).
* **RCSketch capacity** (C122): a sketch that receives about `2 n²/k` items panics (subtraction underflow of the compaction index, or overflow of
  the `u32` counter) in the `add` that reaches exactly that number; `new(1, 1)` takes five items. Nothing checks or documents this limit.
* **RCSketch level-wise insertion** (C130): `insert_at_rc` and `insert_at_rc_batch` are public but leave `count` alone, so a client that uses them
  must maintain `count` itself; otherwise quantile queries exceed 1 (`C130_quantile_above_one`). Skipping a level panics.
* **Merging TDigests** (C135): `add_centroid_buffer` takes `min`/`max` from the centroids it is given, so a digest assembled from other digests
  forgets the true extremes; its value for quantile 0 may be far above the smallest item (`C135_extremes_lost`).
* **Median rounding** (C127): an unmerged TDigest answers value queries with the item at `floor(n*q)`, LinearDigest with the one at `round(n*q)`;
  their quantile estimates agree bit for bit, their values at a quantile need not (comparison of C01 and C127, no separate theorem).
* **RCSketch2 calls** (C134): `insert` and `insert_batch` are public but not counted; 64 direct `grow` calls make every rank query panic.
* **owned_size** (C93): `SymDigest` reports only its inline size, whatever its members hold; `ParallelDigest` counts the inline part of each
  member twice; `RCSketch2` counts 16 bytes per level for three 4-byte entries; `ParTDigest::owned_size` needs a creator that implements
  `OwnedSize`, which no closure does (this last one is a typing fact, not a theorem).

## Testing the theorems
Mutations of the model were run in a scratch copy: each edits one definition like a realistic bug; then (a) an executable oracle
instantiates the *statements* of the property theorems on concrete data and reports those that became false, and (b) the whole project is
rebuilt and the failing declarations, with the property theorems depending on them, are recorded. `seeded/LOG.jsonl` has one line per attempt,
with the theorems tightened as a consequence.

## Testing the model
`tools/ReplayTests.txt` (not part of the build) replays the deterministic unit tests of the repository on the model, in f64 (one in f32) arithmetic
with Lean's `Float` for the transcendental functions: 286 assertions with the expected values and tolerances of the Rust tests, the sketches with
three random seeds. All hold except `rc_sketch2 … rank(500)` with one of the seeds (515 for 500 ± 10); in the model about one run in four
leaves that tolerance, so the Rust test passes or fails by chance. The tests on a million random items, and `add_cluster` with 1001 centroids
(replayed with 101), take too long in the interpreter. Like all tests this checks samples only; no theorem depends on it.
