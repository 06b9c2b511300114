{"id": "C01", "title": "Packed removal drops exactly one element and moves only the last", "statement": "Removing position p from a packed vector of length n yields a vector of length n-1 that holds every other element exactly once: positions other than p keep their element, and position p (if p was not last) now holds the former last element. Removing from a position outside the vector is undefined behaviour. Adding after removing never disturbs the survivors.", "quantifier": "all element types, all vectors, all positions", "why_tests_cant": "Group ids are positions in packed vectors; a test sees a handful of sizes and positions, while every component relies on the same swap rule at every size.", "anchors": ["include/distributions/vector.hpp:Packed_::packed_remove", "include/distributions/vector.hpp:Packed_::packed_add"]}
{"id": "C02", "title": "A sparse counter is a signed multiset", "statement": "After any history of init_count/add/remove/rename/clear calls, get_count(k) is the net count of k (0 if never touched), get_total is the sum of all counts, iterating visits every key with nonzero count exactly once and no key with zero count, and add/remove return the new count. Negative counts (debt) behave like positive ones.", "quantifier": "all keys, all signed counts within int range, all finite histories of operations", "why_tests_cant": "The zero-erasing insert/erase logic has many branches (new key, existing key, crossing zero, from debt to credit) whose interleavings grow exponentially with history length.", "anchors": ["include/distributions/sparse.hpp:SparseCounter"]}
{"id": "C03", "title": "Merging sparse counters adds them", "statement": "After a.merge(b), every key's count is the sum of the two former counts, independent of the iteration order of b, zero results are not stored, and a's total is the sum of the two former totals.", "quantifier": "all pairs of counters, all keys, all iteration orders of the hash table", "why_tests_cant": "Hash iteration order and cancellation to zero cannot be enumerated; existing tests never look at get_total after merge.", "anchors": ["include/distributions/sparse.hpp:SparseCounter::merge", "include/distributions/models/dpd.hpp:Group::merge"]}
{"id": "C04", "title": "A sparse key-value map behaves like a finite map", "statement": "Any history of add/get/get_or_add/remove/pop/unsafe access on a sparse map behaves as the corresponding finite partial function; adding a present key or reading/removing an absent key is reported at debug level 1 and above, and at level 0 is respectively ignored or undefined behaviour.", "quantifier": "all key/value types, all histories, all debug levels", "why_tests_cant": "Behaviour on missing/duplicate keys depends on build level and history; tests run in one build and on happy paths.", "anchors": ["include/distributions/sparse.hpp:Sparse_"]}
{"id": "C05", "title": "Driver bookkeeping: empty ids, sizes and totals are always right", "statement": "After init on any counts vector and any history of valid add_value/remove_value calls, empty_groupids is exactly the set of positions whose count is zero, and sample_size is the sum of the counts; no call has undefined behaviour.", "quantifier": "all initial count vectors, all models, all histories of valid calls, all debug levels", "why_tests_cant": "The empty-id set is patched incrementally on swap-removal; a wrong patch shows only after particular orders of removals.", "anchors": ["include/distributions/mixture.hpp:MixtureDriver"]}
{"id": "C06", "title": "The number of empty groups never changes and the return flag is exact", "statement": "add_value returns true iff the target group was empty, and then exactly one fresh empty group is appended; remove_value returns true iff the target group became empty, and then exactly one group is dropped by swap-removal. Hence the number of empty groups is constant over every history, so if at least one empty group exists initially one always exists.", "quantifier": "all driver states satisfying the invariant, all valid calls, all histories", "why_tests_cant": "Slaves and id trackers add/remove groups only on these flags: one wrong flag in any history desynchronises every feature.", "anchors": ["include/distributions/mixture.hpp:MixtureDriver::add_value", "include/distributions/mixture.hpp:MixtureDriver::remove_value"]}
{"id": "C07", "title": "Adding then removing a value restores the driver", "statement": "add_value(g,c) followed by remove_value(g,c) restores the counts vector, the empty-id set and the sample size exactly, whether or not a group was created on the way; and remove_value(g,c) followed by add_value restores the multiset of nonzero counts.", "quantifier": "all driver states, group ids, counts", "why_tests_cant": "Gibbs sampling alternates these calls millions of times; an inverse law for all states is not testable.", "anchors": ["include/distributions/mixture.hpp:MixtureDriver"]}
{"id": "C08", "title": "Driver misuse is caught by assertions before undefined behaviour", "statement": "At debug level 2 and above, every add_value/remove_value call on the driver either succeeds or raises an assertion error: no combination of group id and count reaches out-of-range access (signed overflow of counts excepted). At level 0 exactly the stated preconditions are needed to avoid undefined behaviour or a corrupted invariant.", "quantifier": "all driver states, all group ids, all counts, all debug levels", "why_tests_cant": "Release builds compile assertions away; a test cannot show that a precondition list is complete.", "anchors": ["include/distributions/mixture.hpp:MixtureDriver", "include/distributions/common.hpp:DIST_ASSERT"]}
{"id": "C09", "title": "Global group ids are a bijection and are never reused", "statement": "After init and any history of add_group/remove_group, packed_to_global and global_to_packed are mutually inverse between the current positions and the live global ids; a surviving group's global id never changes and an id once assigned is never assigned to another group (until 2^32 groups have been created).", "quantifier": "all histories of add_group/remove_group with fewer than 2^32 creations", "why_tests_cant": "Id stability is a statement about all pairs of points in unbounded histories.", "anchors": ["include/distributions/mixture.hpp:MixtureIdTracker"]}
{"id": "C10", "title": "Limits of global ids", "statement": "Global ids are 32 bits: after exactly 2^32 groups have been created over the life of one tracker (even if only one is alive at any time) the next created group silently reuses global id 0; at debug level 0 this makes two live groups share a global id if the first group is still alive.", "quantifier": "the reachable states of the tracker after 2^32 creations", "why_tests_cant": "No test creates 2^32 groups.", "anchors": ["include/distributions/mixture.hpp:MixtureIdTracker::add_group"]}
{"id": "C11", "title": "Driver, feature mixtures and id tracker stay in step", "statement": "When a clustering mixture, any number of feature mixtures and an id tracker are updated by the documented protocol (driver first, then slaves, then add/remove group on the returned flag), then after any history all have the same number of groups, and the feature group at packed position i summarises exactly the multiset of values currently assigned to the global id of position i; positions with zero count hold empty feature groups.", "quantifier": "all histories of add_value/remove_value of values to groups, all feature group types whose add/remove are inverse, all numbers of features", "why_tests_cant": "This is a whole-history, cross-component refinement property; unit tests exercise components separately.", "anchors": ["include/distributions/mixture.hpp", "include/distributions/clustering.hpp:PitmanYor::CachedMixture", "doc/overview.rst", "examples/mixture/main.py"]}
{"id": "C12", "title": "Driver score_value scores every group by the model with the right context", "statement": "For every driver state, score_value writes for each position the model's score_add_value applied to that position's count, the number of nonempty groups, the total sample size and the number of empty groups; all empty positions get the same score and the output depends on nothing else.", "quantifier": "all models, all reachable driver states", "why_tests_cant": "A quantification over all states and all clustering models.", "anchors": ["include/distributions/mixture.hpp:MixtureDriver::score_value"]}
{"id": "C13", "title": "Pitman-Yor cached scores equal freshly computed scores after any history", "statement": "After init and any history of valid add_value/remove_value, the vector written by the cached Pitman-Yor mixture's score_value is, entry by entry, what a freshly initialised cached mixture with the same counts writes (bit for bit, whatever the floating point operations do), and in exact arithmetic equals score_add_value of the uncached model for each group.", "quantifier": "all parameters, all initial counts, all histories", "why_tests_cant": "Incrementally maintained caches fail only on specific histories.", "anchors": ["include/distributions/clustering.hpp:PitmanYor::CachedMixture", "include/distributions/clustering.hpp:PitmanYor::score_add_value"]}
{"id": "C14", "title": "Pitman-Yor predictive probabilities sum to one", "statement": "For admissible parameters (0<=d<1, alpha>-d with alpha + d*K > 0) and any counts with at least one empty group, exponentiating the scores of all groups (nonempty and all empty placeholders) and summing gives exactly 1 in exact arithmetic.", "quantifier": "all admissible parameters, all count vectors with at least one empty group and at least one customer or alpha>0", "why_tests_cant": "Normalisation is an identity over all real parameters and all partitions.", "anchors": ["include/distributions/clustering.hpp:PitmanYor::score_add_value", "include/distributions/mixture.hpp:MixtureDriver::score_value"]}
{"id": "C15", "title": "Pitman-Yor score_counts is the sequential seating score and is exchangeable", "statement": "In exact arithmetic score_counts(counts) equals the sum of score_add_value along every seating order that produces those counts; it is invariant under permuting groups and inserting empty groups, and score_counts of no customers is 0.", "quantifier": "all admissible parameters, all seating sequences, all permutations", "why_tests_cant": "score_counts uses special cases for counts 1 and 2 and log-gamma otherwise; agreement with all orders is an unbounded identity.", "anchors": ["src/clustering.cc:PitmanYor::score_counts", "include/distributions/clustering.hpp:PitmanYor::score_add_value"]}
{"id": "C16", "title": "Pitman-Yor defines a proper distribution on partitions", "statement": "For every n, the sum over all valid assignment sequences of length n (contiguous ids in order of first appearance) of exp(score_counts(count_assignments)) is exactly 1 in exact arithmetic.", "quantifier": "all n, all admissible parameters", "why_tests_cant": "The number of partitions is super-exponential in n.", "anchors": ["src/clustering.cc:PitmanYor::score_counts"]}
{"id": "C17", "title": "Pitman-Yor removal score is the negated addition score", "statement": "Scoring the removal of a value from a group, evaluated on the state after adding it, is the negative of the score of adding it to the state before, in exact arithmetic, whenever the number of empty groups passed is the same before and after.", "quantifier": "all parameters, all group sizes, sample sizes and group counts", "why_tests_cant": "The singleton branch carries a FIXME in the source; equality must hold for all sizes.", "anchors": ["include/distributions/clustering.hpp:PitmanYor::score_remove_value"]}
{"id": "C18", "title": "Sampled assignments are valid for every random stream", "statement": "PitmanYor.sample_assignments(n) returns for every stream of random numbers and any floating point behaviour a vector of length n whose ids start at 0 and never skip: each entry is at most one more than the maximum of the earlier ones; no access is out of range.", "quantifier": "all sizes, parameters, random streams, floating-point semantics", "why_tests_cant": "The random stream is unbounded; rounding corner cases decide the fall-through branch of the sampler.", "anchors": ["src/clustering.cc:PitmanYor::sample_assignments", "include/distributions/random.hpp:sample_from_likelihoods"]}
{"id": "C19", "title": "count_assignments counts", "statement": "count_assignments returns a vector whose entry g is the number of items assigned to g, of length one more than the largest id (0 for no items), whatever the iteration order of the assignment map; its sum is the number of items; on sampled assignments no entry is zero. A negative group id is outside its domain.", "quantifier": "all assignment maps, all iteration orders", "why_tests_cant": "Unordered iteration and arbitrary ids.", "anchors": ["src/clustering.cc:count_assignments"]}
{"id": "C20", "title": "Low-entropy removal score is the negated addition score", "statement": "As C17 for the low-entropy clustering model: score_remove_value on the state after an addition should equal minus score_add_value on the state before, and be defined on every nonempty state.", "quantifier": "all dataset sizes, group sizes, sample sizes", "why_tests_cant": "Only holds or fails at particular combinations (singleton groups, full datasets).", "anchors": ["include/distributions/clustering.hpp:LowEntropy::score_remove_value", "include/distributions/clustering.hpp:LowEntropy::score_add_value"]}
{"id": "C21", "title": "Low-entropy addition scores telescope to score_counts", "statement": "For a complete dataset the sum of score_add_value over a seating order should equal score_counts up to the normaliser: for nonempty groups the increment equals (n+1)log(n+1) - n log n exactly for n <= 10000 and within 1/(2n) beyond.", "quantifier": "all group sizes", "why_tests_cant": "The branch threshold and approximation error must hold for all sizes.", "anchors": ["include/distributions/clustering.hpp:LowEntropy::score_add_value", "src/clustering.cc:LowEntropy::score_counts"]}
{"id": "C22", "title": "Low-entropy sampled assignments are valid for every random stream", "statement": "LowEntropy.sample_assignments(k) with k not above the dataset size returns a length-k vector of contiguous ids in order of first appearance for every random stream and any floating point behaviour; larger k is rejected by an assertion.", "quantifier": "all dataset sizes, sample sizes, random streams", "why_tests_cant": "Unbounded random streams.", "anchors": ["src/clustering.cc:LowEntropy::sample_assignments"]}
{"id": "C23", "title": "Clustering data scores ignore empty groups", "statement": "score_data of a clustering mixture should not depend on how many empty placeholder groups the mixture keeps.", "quantifier": "all counts vectors, both clustering models", "why_tests_cant": "Must hold for all numbers and positions of empty groups.", "anchors": ["src/clustering.cc:LowEntropy::score_counts", "src/clustering.cc:PitmanYor::score_counts", "include/distributions/mixture.hpp:MixtureDriver::score_data"]}
{"id": "C24", "title": "Low-entropy scores are normalised", "statement": "exp of the low-entropy log partition function at n is the sum over all partitions of n items of the product of block sizes to the power block size, for every n covered by the exact table.", "quantifier": "all table entries, all partitions of that many items", "why_tests_cant": "Number of partitions is super-exponential (Bell numbers up to n=47).", "anchors": ["src/clustering.cc:LowEntropy::log_partition_function"]}
{"id": "C25", "title": "Feature group statistics depend only on the multiset of values", "statement": "For every model, after any interleaving of add_value and remove_value the group's sufficient statistics equal those of adding the net multiset in any order; add_value then remove_value is the identity. For integer statistics this includes temporary debt (removing before adding) and unsigned wrap-around.", "quantifier": "all values, all histories, all permutations, models BB, DD, DPD, GP, BNB, NICH, NIW", "why_tests_cant": "Order independence over all permutations of unbounded data.", "anchors": ["include/distributions/models/*.hpp:Group::add_value", "include/distributions/models/*.hpp:Group::remove_value"]}
{"id": "C26", "title": "add_repeated_value(v,n) equals n add_value(v)", "statement": "For every model and every group state, adding a value n times at once gives the same group as adding it n times.", "quantifier": "all group states, all values, all n", "why_tests_cant": "Existing tests start from an empty group; the law must hold for all states.", "anchors": ["include/distributions/models/*.hpp:Group::add_repeated_value"]}
{"id": "C27", "title": "merge is union of data", "statement": "For every model, merging the group built from data xs with the group built from data ys gives the group built from xs followed by ys (all observable statistics, including scores computed later).", "quantifier": "all data sequences xs, ys (possibly empty)", "why_tests_cant": "All pairs of groups, including empty ones; cached totals matter only in later calls.", "anchors": ["include/distributions/models/*.hpp:Group::merge"]}
{"id": "C28", "title": "Chain rule: data score is the sum of sequential predictive scores", "statement": "In exact arithmetic score_data(group after adding v) = score_data(group) + score_value(group, v), and score_data(empty group) = 0; hence score_data is the log probability of the data under the sequential predictive in any order.", "quantifier": "all hyperparameters in range, all data sequences, models BB, DD, DPD, GP, BNB, NICH, NIW", "why_tests_cant": "An identity of special functions over all reals and all data.", "anchors": ["include/distributions/models/*.hpp:Group::score_value", "include/distributions/models/*.hpp:Group::score_data"]}
{"id": "C29", "title": "Data scores are exchangeable", "statement": "score_data, score_value and the mixture scores give identical results (bit for bit for integer statistics, in exact arithmetic otherwise) for any two orders of adding the same values.", "quantifier": "all permutations of all data sequences", "why_tests_cant": "Factorially many orders.", "anchors": ["include/distributions/models/*.hpp"]}
{"id": "C30", "title": "Finite predictive distributions sum to one", "statement": "exp(score_value) summed over all values is exactly 1 in exact arithmetic for Beta-Bernoulli, Dirichlet-Discrete of every dimension and Dirichlet-Process-Discrete (all known values plus OTHER, when the betas and the leftover sum to 1), for every group.", "quantifier": "all hyperparameters in range, all groups, all dimensions", "why_tests_cant": "Unbounded parameters.", "anchors": ["include/distributions/models/bb.hpp", "include/distributions/models/dd.hpp", "include/distributions/models/dpd.hpp"]}
{"id": "C31", "title": "Count predictive distributions sum to one", "statement": "exp(score_value) summed over all natural numbers is exactly 1 for Gamma-Poisson and for Beta-Negative-Binomial, for every group.", "quantifier": "all hyperparameters in range, all groups, infinite sum over values", "why_tests_cant": "An infinite series.", "anchors": ["include/distributions/models/gp.hpp", "include/distributions/models/bnb.hpp"]}
{"id": "C32", "title": "Normal predictive density integrates to one", "statement": "The Normal-Inverse-ChiSq predictive score is the log of a density that integrates to 1 over the reals for every group.", "quantifier": "all hyperparameters in range, all groups", "why_tests_cant": "An integral over the reals.", "anchors": ["include/distributions/models/nich.hpp", "src/models/nich.cc"]}
{"id": "C33", "title": "Posterior updating composes", "statement": "Updating the hyperparameters with a group and then treating the result as a prior for a second group gives the same posterior as updating once with the merged group, for GP, BNB, NICH, NIW.", "quantifier": "all hyperparameters, all pairs of data sets", "why_tests_cant": "Identities over all data.", "anchors": ["include/distributions/models/gp.hpp:Shared::plus_group", "include/distributions/models/bnb.hpp:Shared::plus_group", "include/distributions/models/nich.hpp:Shared::plus_group", "include/distributions/models/niw.hpp:Shared::plus_group"]}
{"id": "C34", "title": "Scorer objects agree with groups", "statement": "Initialising a Scorer from a group and evaluating it gives the same number as the group's score_value for every value, and evaluation has no hidden state.", "quantifier": "all groups, values, models", "why_tests_cant": "All values and states.", "anchors": ["include/distributions/models/*.hpp:Scorer"]}
{"id": "C35", "title": "Feature mixture value scores are coherent after any history", "statement": "After clear/init and any history of add_group, remove_group, add_value, remove_value (valid ids), a feature mixture's score_value_group(g,v) equals the per-group score of group g, and the vectorised score_value adds exactly score_value_group(g,v) to entry g of the accumulator, for BB, DD, GP, BNB, NICH.", "quantifier": "all histories, values, group ids", "why_tests_cant": "Incremental per-group caches with swap-removal.", "anchors": ["include/distributions/mixture.hpp:MixtureSlave", "include/distributions/models/*.hpp:MixtureValueScorer"]}
{"id": "C36", "title": "Mixture data scores and hyperparameter grids are sums of group scores", "statement": "A feature mixture's score_data equals the sum of its groups' score_data, and score_data_grid equals, entry by entry, score_data under each hyperparameter of the grid, also for the incrementally updated Dirichlet-Discrete grid.", "quantifier": "all mixtures, all grids (any consecutive differences)", "why_tests_cant": "The incremental update depends on which coordinates differ between consecutive grid points.", "anchors": ["include/distributions/mixture.hpp:MixtureSlaveDataScorerMixin", "include/distributions/models/dd.hpp:MixtureDataScorer"]}
{"id": "C37", "title": "Dirichlet-process mixture cache is coherent", "statement": "Under the protocol 'shared.add_value before mixture.add_value, mixture.remove_value before shared.remove_value', after any history the DPD mixture's cached scores equal per-group scores for every known value and OTHER, no cached lookup is missing, and entries are dropped exactly when the last occurrence is removed.", "quantifier": "all histories of values and groups following the protocol", "why_tests_cant": "Reference-counted cache rows: wrong only in particular histories.", "anchors": ["include/distributions/models/dpd.hpp:MixtureValueScorer"]}
{"id": "C38", "title": "Dirichlet-process shared weights stay a probability vector", "statement": "After any history of add_value/remove_value on DPD shared state, for every random stream: known values are exactly those with positive count, each weight is positive, and the weights plus the leftover sum to 1.", "quantifier": "all histories and random streams", "why_tests_cant": "Clamping at tiny leftovers fires only on rare draws.", "anchors": ["include/distributions/models/dpd.hpp:Shared::add_value", "include/distributions/models/dpd.hpp:Shared::remove_value"]}
{"id": "C39", "title": "Dirichlet-process realize terminates with everything instantiated", "statement": "realize() terminates for every random stream, leaves leftover weight 0, preserves the total mass and existing weights, uses fresh values only, and ends with at most the documented number of values.", "quantifier": "all shared states and random streams", "why_tests_cant": "Termination under arbitrary randomness.", "anchors": ["include/distributions/models/dpd.hpp:Shared::realize"]}
{"id": "C40", "title": "Protobuf round trips are lossless", "statement": "Loading a dumped Shared or Group (every model) or clustering model restores it, including negative counts; for DPD whatever the hash iteration order.", "quantifier": "all shared and group states", "why_tests_cant": "Integer width conversions (int32 to uint64 and back) and hash order.", "anchors": ["include/distributions/models/*.hpp:protobuf_load", "include/distributions/models/*.hpp:protobuf_dump", "distributions/io/schema.proto"]}
{"id": "C41", "title": "Multivariate normal groups", "statement": "For NIW in every dimension: add/remove inverse, order independence, merge is union, repeated add, posterior composition and the chain rule score_data(g+v) = score_data(g) + score_value(g,v) via the multivariate Student-t predictive.", "quantifier": "all dimensions, all vectors, all positive definite scale matrices", "why_tests_cant": "Matrix identities in every dimension.", "anchors": ["include/distributions/models/niw.hpp", "include/distributions/random.hpp:score_mv_student_t"]}
{"id": "C42", "title": "sample_discrete draws index i with probability p_i", "statement": "For weights summing to 1 and a uniform draw u, sample_discrete returns i exactly when u lies in the i-th cumulative interval, whose length is p_i; for every draw and any weights the result is a valid index.", "quantifier": "all dimensions, all weights, all draws", "why_tests_cant": "Exactness at interval boundaries and for all weights.", "anchors": ["include/distributions/random.hpp:sample_discrete"]}
{"id": "C43", "title": "sample_from_likelihoods returns a valid index of positive likelihood", "statement": "For every nonempty likelihood vector and every draw the returned index is in range, the set of draws selecting i has measure proportional to the i-th likelihood, and an index of zero likelihood is never returned when some likelihood is positive.", "quantifier": "all likelihood vectors and draws", "why_tests_cant": "Boundary draws (u = 0 or rounding at the end) are rare.", "anchors": ["include/distributions/random.hpp:sample_from_likelihoods"]}
{"id": "C44", "title": "Score-to-probability conversions", "statement": "In exact arithmetic scores_to_probs returns exp(s_i)/sum exp(s_j) (nonnegative, summing to 1), log_sum_exp returns log sum exp, both are invariant/equivariant under shifting all scores; sampling from scores returns the probability of the sampled index; score_from_scores_overwrite returns its log probability and consumes exactly the same randomness as sampling.", "quantifier": "all score vectors, all shifts, all random streams", "why_tests_cant": "All real vectors; entropy synchronisation is a statement about rng states.", "anchors": ["include/distributions/random.hpp:scores_to_probs", "include/distributions/random.hpp:sample_from_scores_overwrite", "src/random.cc:log_sum_exp", "src/random.cc:scores_to_likelihoods", "src/random.cc:score_from_scores_overwrite"]}
{"id": "C45", "title": "Sampling pairs from an urn gives two distinct members, uniformly", "statement": "sample_pair_from_urn returns two entries at different positions for every random stream; every ordered pair of distinct positions arises from exactly one pair of draws.", "quantifier": "all urns of size at least 2, all draws", "why_tests_cant": "All sizes and draws.", "anchors": ["include/distributions/random.hpp:sample_pair_from_urn", "include/distributions/random.hpp:sample_from_urn"]}
{"id": "C46", "title": "Dirichlet and beta samplers return probability vectors", "statement": "For every sequence of nonnegative gamma draws not all zero, sample_dirichlet returns nonnegative entries summing to 1; the safe variant additionally bounds every entry below by a positive constant; sample_beta and its safe variant stay in [0,1].", "quantifier": "all dimensions, all draws", "why_tests_cant": "All draws including zeros.", "anchors": ["src/random.cc:sample_dirichlet", "src/random.cc:sample_dirichlet_safe", "include/distributions/random.hpp:sample_beta_safe"]}
{"id": "C47", "title": "fast_log is memory safe, monotone and accurate", "statement": "For each of the 2^32 float bit patterns the table index is in range; for positive normal floats the error against the true logarithm is below the table resolution, powers of two are exact and the function is monotone; non-positive, subnormal and special inputs give the stated (finite) values.", "quantifier": "all 2^32 bit patterns", "why_tests_cant": "Accuracy and safety over the whole bit domain against the real logarithm.", "anchors": ["include/distributions/special.hpp:FastLog", "src/special.cc:FastLog::FastLog"]}
{"id": "C48", "title": "fast_lgamma and fast_lgamma_nu never read outside their tables", "statement": "For every float input the coefficient-table index is in range or the input is delegated to the library function.", "quantifier": "all 2^32 bit patterns", "why_tests_cant": "Tests cannot observe out-of-bounds reads on all inputs; NaN is not tested.", "anchors": ["include/distributions/special.hpp:fast_lgamma", "include/distributions/special.hpp:fast_lgamma_nu"]}
{"id": "C49", "title": "fast_exp is accurate on the range used by score conversions and saturates elsewhere", "statement": "For all inputs in [-87,88] the relative error is below 2^-22 in exact arithmetic, very negative finite inputs are clamped to a tiny nonnegative number, and large positive inputs saturate instead of wrapping.", "quantifier": "all inputs", "why_tests_cant": "The clamp is decided by an integer conversion whose behaviour differs by sign and magnitude.", "anchors": ["include/distributions/vendor/fmath.hpp:exp", "include/distributions/special.hpp:fast_exp"]}
{"id": "C50", "title": "Stirling-number table is exact and independent of call history", "statement": "log_stirling1(n,k) for n within the cache returns the log of the unsigned Stirling number of the first kind, whatever sequence of calls (from any thread) came before; the cached row for n has n+1 entries.", "quantifier": "all n below the exact limit, all call histories and interleavings of atomic calls", "why_tests_cant": "The cache is filled lazily in history-dependent order.", "anchors": ["src/special.cc:log_stirling1"]}
{"id": "C51", "title": "Table-driven special functions index their tables in range", "statement": "fast_log_factorial, the floor-log2 table and the low-entropy partition table are only read inside their bounds for every argument, and the floor-log2 table is correct at every entry.", "quantifier": "all 32-bit arguments", "why_tests_cant": "2^32 inputs.", "anchors": ["include/distributions/special.hpp:fast_log_factorial", "src/special.cc:LogTable256", "src/clustering.cc:log_partition_function"]}
{"id": "C52", "title": "Vector kernels are elementwise", "statement": "Each vector_math kernel equals its elementwise or fold definition for every length, independent of alignment, and never touches elements beyond size.", "quantifier": "all lengths, all contents", "why_tests_cant": "All lengths including 0 and non-multiples of SIMD width.", "anchors": ["src/vector_math.cc"]}
{"id": "C53", "title": "Closeness of messages is a symmetric, reflexive, order-insensitive relation", "statement": "are_close on messages is reflexive on finite values and symmetric; for DPD messages it does not depend on the order in which values were dumped.", "quantifier": "all messages, all permutations", "why_tests_cant": "All permutations.", "anchors": ["include/distributions/io/protobuf.hpp", "include/distributions/assert_close.hpp"]}
{"id": "C54", "title": "Length-prefixed streams round trip", "statement": "Reading a stream written item by item yields the same items in order; a stream cut at any byte yields a prefix of the items (no corrupted item).", "quantifier": "all item lists, all truncation points", "why_tests_cant": "All crash points.", "anchors": ["distributions/io/stream.py"]}
{"id": "C55", "title": "Aligned allocation sizes do not overflow", "statement": "For every n up to the allocator's max_size the byte count n*sizeof(T) does not wrap; beyond it the allocator would silently allocate a shorter buffer.", "quantifier": "all n, all element sizes", "why_tests_cant": "Needs n near 2^62.", "anchors": ["include/distributions/aligned_allocator.hpp"]}
{"id": "C56", "title": "Counters are read only after initialisation", "statement": "No sequence of API calls that starts with the documented initialisation reads an uninitialised counter; and which calls before initialisation would is stated. The example parameters of the models are all assigned and in range, except for the Dirichlet process (finding, proved: making its example is undefined behaviour).", "quantifier": "all call sequences", "why_tests_cant": "Uninitialised reads are not observable by asserting tests.", "anchors": ["include/distributions/sparse.hpp:SparseCounter", "include/distributions/models/dpd.hpp:Shared::EXAMPLE", "include/distributions/mixture.hpp:MixtureDriver", "include/distributions/mixture.hpp:MixtureIdTracker"]}
{"id": "C57", "title": "The fast and reference implementations compute the same function", "statement": "In exact arithmetic each lp (C++) group score equals the dbg (Python reference) score for the same statistics.", "quantifier": "all hyperparameters and groups", "why_tests_cant": "Agreement is only sampled by comparison tests.", "anchors": ["include/distributions/models/", "distributions/dbg/models"]}
{"id": "C58", "title": "Samplers only return values in the support", "statement": "Value samplers return an index below the dimension (DD), a known value or OTHER (DPD), true/false with the group's probability (BB), for every random stream.", "quantifier": "all groups, all random streams", "why_tests_cant": "Unbounded random streams and rounding fall-through.", "anchors": ["include/distributions/models/dd.hpp:Sampler", "include/distributions/models/dpd.hpp:Sampler", "include/distributions/models/bb.hpp:Sampler"]}
{"id": "C59", "title": "Sampled values follow the predictive distribution that scores report", "statement": "For every model, if the primitive random draws (uniform, gamma, Poisson, negative binomial, normal) have their nominal laws and successive draws are independent, then sample_value on a group returns v with probability exp(score_value(v)) (density exp(score_value) for real values), and the generator state left behind is independent of the value.", "quantifier": "all hyperparameters, all groups, all values, all sources of randomness with the stated laws", "why_tests_cant": "A statement about exact probabilities; tests can only compare histograms for a few parameters.", "anchors": ["include/distributions/models/gp.hpp:sample_value", "include/distributions/models/nich.hpp:sample_value", "include/distributions/models/dd.hpp:sample_value", "include/distributions/models/bb.hpp:sample_value", "include/distributions/models/dpd.hpp:sample_value", "include/distributions/models/bnb.hpp:sample_value", "include/distributions/models/niw.hpp:sample_value"]}
{"id": "C60", "title": "Sampled assignments follow the Pitman-Yor distribution", "statement": "If uniform draws are uniform and independent, PitmanYor sample_assignments(n) returns each assignment vector with probability exp(score_counts) of its counts, never returns a vector that is not contiguous, and leaves a generator state independent of the vector.", "quantifier": "all admissible alpha and d with alpha other than 0 (where C15 fails), all n, all assignment vectors", "why_tests_cant": "The number of assignment vectors grows like the Bell numbers; tests compare histograms for tiny n.", "anchors": ["src/clustering.cc:PitmanYor::sample_assignments", "src/clustering.cc:PitmanYor::score_counts"]}
{"id": "C61", "title": "The high-precision implementation agrees with the C++ and the reference", "statement": "For DirichletDiscrete, GammaPoisson and NormalInverseChiSq, after any history of updates on which the C++ group does not fail, the high-precision group holds the same statistics, and its score_value, score_data and the function from random draws to sampled values equal those of the C++ in exact arithmetic; where the two differ, the inputs on which they differ are characterised.", "quantifier": "all histories of init, add, remove, repeated add and merge; all hyperparameters; all values; all sources of randomness", "why_tests_cant": "The test-suite compares the flavors on a few example data sets, within tolerance, and never on failing or out-of-range input.", "anchors": ["distributions/hp/models/dd.pyx", "distributions/hp/models/gp.pyx", "distributions/hp/models/nich.pyx", "distributions/hp/special.pyx", "distributions/hp/random.pyx"]}
{"id": "C62", "title": "sample_group draws data sets with the probability score_data reports", "statement": "For every model with an exact conjugate form, if the random number generator has the laws the C++ standard gives it, sample_group(shared, n) returns a given list of n values with probability (joint density for real values) exp(score_data(shared)) of the group holding these values, and what remains of the random stream is independent of the list.", "quantifier": "all positive hyperparameters, all sizes up to INT_MAX, all lists of values (all measurable sets of lists for real values), both the C++ and the high-precision flavor", "why_tests_cant": "A test can only compare histograms of a few samples for one or two values; the joint law of arbitrarily long lists cannot be sampled.", "anchors": ["distributions/lp/models/_dd.pyx", "distributions/lp/models/_bb.pyx", "distributions/lp/models/_gp.pyx", "distributions/lp/models/_bnb.pyx", "distributions/lp/models/_dpd.pyx", "distributions/lp/models/_nich.pyx", "distributions/lp/models/_niw.pyx", "distributions/hp/models/dd.pyx", "distributions/hp/models/gp.pyx", "distributions/hp/models/nich.pyx"]}
{"id": "C63", "title": "Low-entropy clusterings are drawn by their sequential predictive scores", "statement": "If the random number generator has the laws the C++ standard gives it, LowEntropy.sample_assignments(n) returns a given vector of group ids, numbered in order of first appearance, with the product over its items of exp(score_add_value) of the chosen group, normalised over the groups present and one new group; for a complete data set (n = dataset_size) this is the documented P(X) proportional to the product of N_k^N_k.", "quantifier": "all dataset sizes up to INT_MAX, all sample sizes up to the dataset size, all assignment vectors, all debug levels", "why_tests_cant": "The suite compares histograms of small samples with the scores up to a tolerance, which hides that the law is only approximately the documented one.", "anchors": ["src/clustering.cc: LowEntropy::sample_assignments", "include/distributions/clustering.hpp: LowEntropy::score_add_value", "distributions/dbg/clustering.py: LowEntropy"]}
{"id": "C64", "title": "Serialised messages read back exactly", "statement": "For every message class of the schema, parsing the serialisation of a message with its required fields set returns the same message, unknown fields included; ByteSize is the number of bytes written whenever that fits an int; messages compare equal exactly if they are equal; serialisations written one after the other parse as the merged message; a message lacking a required field is rejected; a truncated serialisation is rejected, or is the serialisation of a message that holds the first values of each repeated field. Hence every model object is restored from the bytes of its message. Repeated fields in packed form, which the classes do not write, are read as the same values with a tag each, and refused when cut short.", "quantifier": "all message classes, all field values of the declared types (all float bit patterns), all lengths of repeated fields, all cut positions, all unknown fields", "why_tests_cant": "The suite writes and reads a few small messages; it cannot enumerate values, lengths and cut positions, nor show that truncation inside a repeated field goes unnoticed only at value boundaries.", "anchors": ["src/io/schema.pb.cc", "include/distributions/io/schema.pb.h", "include/distributions/io/protobuf.hpp: operator==", "distributions/io/schema.proto"]}
{"id": "C65", "title": "A call that fails leaves the object as it was", "statement": "When errors are thrown (DIST_THROW_ON_ERROR) and caught, a failed call has no effect: adding to, removing from, popping from or setting a sparse map, counting in a sparse counter, adding to or removing from a mixture driver in a reachable state, removing a group from an id tracker, adding a value to a group and to the mixture around it all leave the object unchanged when they fail; so a program that catches every error ends where the program of its successful calls ends. Shared::add_value, rename, init and protobuf_load do the same.", "quantifier": "all objects reachable through the interface, all arguments, all debug levels, all sequences of calls", "why_tests_cant": "The tests abort on errors or check only that an error is raised; the state after a failed call is never looked at.", "anchors": ["include/distributions/common.hpp: DIST_THROW_ON_ERROR, DIST_ASSERT", "include/distributions/sparse.hpp: Sparse_, SparseCounter", "include/distributions/mixture.hpp: MixtureDriver, MixtureSlave, MixtureIdTracker", "include/distributions/models/dpd.hpp: Shared", "include/distributions/models/dd.hpp: protobuf_load"]}
{"id": "C66", "title": "Gibbs inference with the mixture API targets the posterior", "statement": "Run over exact reals with an ideal random source, the documented inference loops built from the cached clustering, the feature mixtures, the id tracker and either of the two score samplers do what they claim. Removing an item, scoring it and adding it to the sampled group draws the new clustering from its full conditional under the posterior given by score_counts and score_data; placing a new item draws from the posterior conditional on the clustering so far; placing items with the clustering scores alone draws from the prior exp(score_counts). Passes over any items leave the posterior unchanged, and passes over all items converge to the posterior geometrically, at a rate that does not depend on the start; so do compress_gibbs and compress_seq_gibbs from an empty mixture, which almost surely run without error. compress_sequential almost surely ends too, with the mixture that one pass of compress_seq_gibbs ends with on the same samples and random numbers. The number of empty groups kept around and the order of the groups make no difference. The words of a Dirichlet-Process-Discrete feature are known to its shared state, which stays as it is. A Dirichlet-Discrete mixture needs init on an empty mixture before its first add_group, which the example does not do.", "quantifier": "all positive alpha and 0 <= d < 1, all lists of Beta-Bernoulli, Gamma-Poisson, Beta-Negative-Binomial, Normal-Inverse-ChiSq, Dirichlet-Discrete or Dirichlet-Process-Discrete features with positive hyperparameters, all data (counts adding up to less than 2^32), up to 2^31-1 items, all numbers of passes that create at most 2^32 group ids, all initial numbers of empty groups, all debug levels, all reachable states", "why_tests_cant": "Invariance and convergence are statements about the law of a Markov chain over all partitions; tests check single score values or compare a few histograms, and an error in the weight of an empty group or in the cache of a shifted group biases results without failing any assertion.", "anchors": ["examples/mixture/main.py: ImageModel.Mixture, compress_gibbs, compress_seq_gibbs, compress_sequential", "include/distributions/mixture.hpp: MixtureDriver, MixtureSlave, MixtureIdTracker", "include/distributions/clustering.hpp: PitmanYor::CachedMixture", "include/distributions/random.hpp: sample_from_scores_overwrite", "distributions/dbg/random.py: sample_discrete_log", "distributions/util.py: scores_to_probs"]}
{"id": "C67", "title": "Subsample annealing ends with every sample placed", "statement": "compress_annealing(passes) with passes >= 1 on a non-empty dataset never fails: it only removes samples that are in the mixture, it stops after at most (2 passes - 1) N rounds, and when it stops every sample is assigned to exactly one live group, the number of placements being between passes (N - 1) and passes N. On an empty dataset it does not stop.", "quantifier": "all numbers of passes and samples (passes N plus the empty groups at most 2^32), all data, all lists of library features as in C66, all draws of the sampler, all debug levels", "why_tests_cant": "The schedule interleaves additions and removals over two independent cyclic readers; whether a removal ever finds its sample missing, or the loop fails to reach the full dataset, depends on the arithmetic of the schedule for every size and number of passes.", "anchors": ["examples/mixture/main.py: json_loop_load, annealing_schedule, compress_annealing", "include/distributions/mixture.hpp: MixtureDriver, MixtureIdTracker"]}
{"id": "C68", "title": "The reference implementation samples from its own predictive distributions", "statement": "In the pure-Python reference models (distributions.dbg.models) Group.sample_value returns a value v with probability (or density) exp(score_value(v)) given the data added so far, and sample_group(shared, n) returns a list of n values with probability (or density) exp(score_data) of the group that holds them, when numpy's and scipy's draws have their documented laws.", "quantifier": "all positive hyperparameters, all data sets of any size, all values, all iteration orders of Python dictionaries", "why_tests_cant": "A goodness-of-fit test on finitely many draws can miss a bias, only covers a handful of parameter settings and cannot check the joint law of a whole sampled group.", "anchors": ["distributions/dbg/models/*.py: Sampler.init, Sampler.eval, sample_value, sample_group, score_value, score_data", "distributions/dbg/random.py: sample_discrete, sample_normal"]}
{"id": "C69", "title": "fast_lgamma and fast_log_factorial are accurate", "statement": "For every finite float y with 2.5 <= y < 2^32, fast_lgamma(y) differs from log Gamma(y) by at most 4e-5 y, rounding after every operation included, and by at most 1e-5 y before rounding. For 64 <= n < 2^32 - 129, fast_log_factorial(n) differs from log n! by at most 5e-5 (n + 1). For n = 2^32 - 1 the argument wraps around and the function returns the libc's log Gamma(0).", "quantifier": "all floats in the range, all integers in the range, every rounding function with the error of single precision, whatever the libc's lgamma does outside the range", "why_tests_cant": "There are about 2^28 floats in the range and every octave has its own polynomial; a spot check misses the worst point of an octave, and comparing with another libm does not bound the distance to the mathematical function.", "anchors": ["include/distributions/special.hpp: fast_lgamma, fast_log_factorial", "src/special.cc: lgamma_approx_coeff5"]}
{"id": "C70", "title": "fast_lgamma_nu is accurate to 0.0161 and no better than 0.013", "statement": "For every finite float nu with 1/16 <= nu < 2^32, fast_lgamma_nu(nu) differs from log Gamma(nu/2 + 1/2) - log Gamma(nu/2) by at most 0.0161, rounding included. At nu = 1 the difference exceeds 0.013 even in exact arithmetic, so Student-t scores built on it carry an error of that size.", "quantifier": "all floats in the range, every rounding function with the error of single precision", "why_tests_cant": "The worst errors sit at the ends of the intervals of the piecewise cubic; random test points rarely come near them and no finite sample bounds the error on all 36 octaves.", "anchors": ["include/distributions/special.hpp: fast_lgamma_nu, poly_eval_3", "src/special.cc: lgamma_nu_func_approx_coeff3"]}
{"id": "C71", "title": "The reference implementation draws partitions uniformly and sticks that end", "statement": "sample_partition_from_counts(items, counts) returns blocks of the given sizes that together are a rearrangement of the items, every such result has probability 1/n! when the n items differ, and counts with another sum are rejected. sample_stick(gamma, tol) with gamma > 0 and 0 < tol < 1 is still running after k rounds with probability at most (gamma/(1+gamma))^k / tol, so it ends with probability one, and what it returns are positive numbers with sum 1. With tol >= 1 it returns an empty dict.", "quantifier": "all item lists and counts, all gamma and tolerances, all numbers of rounds, every source of random numbers with the documented laws", "why_tests_cant": "Termination of the stick breaking loop and the uniform law are statements about the distribution of the random numbers; a test sees a handful of draws, and an unbounded loop is never observed to be infinite.", "anchors": ["distributions/dbg/random.py: sample_partition_from_counts, sample_stick"]}
{"id": "C72", "title": "Student t and Wishart draws of the reference implementation have the documented law", "statement": "sample_student_t(dof, mu, Sigma) draws from the density exp(score_student_t(x, dof, mu, Sigma)), and sample_wishart_naive, sample_wishart and sample_wishart_v2 draw matrices with mean nu Lambda. The code satisfies this for one degree of freedom and for sample_wishart_naive only: the draw has scale Sigma/dof instead of Sigma, and the mean of the first entry is (nu - 2d + 2) Lambda_00 for sample_wishart and (nu + 1) Lambda_00 for sample_wishart_v2.", "quantifier": "all dimensions, all degrees of freedom, all means and positive definite matrices, every source of random numbers with the documented laws", "why_tests_cant": "No test calls these functions; a test by sampling would need the law of a matrix valued variable, and a wrong scale looks like an unlucky parameter choice.", "anchors": ["distributions/dbg/random.py: sample_student_t, score_student_t, sample_wishart_naive, sample_wishart, sample_wishart_v2"]}
{"id": "C73", "title": "The goodness-of-fit helpers report the statistic of the chi-squared law they refer to", "statement": "multinomial_goodness_of_fit, handed the counts of independent draws from the probabilities it is given, evaluates the chi-squared survival function at a statistic whose expectation is the number of degrees of freedom used; unif01_goodness_of_fit bins every sample of [0, 1] it accepts; density_goodness_of_fit is independent of the order and of the unit of the samples and never raises for want of a bin; discrete_goodness_of_fit tests the true counts of the categories, the most probable ones if truncated, in any order of the dictionary; score_to_empirical_kl is the Kullback-Leibler divergence from the empirical distribution. The code satisfies the first for truncated data only: untruncated, the statistic has expectation k with k - 1 degrees of freedom, and with two categories it is twice Pearson's statistic. An observation of probability zero gets the p-value infinity, and a sample equal to 1 raises IndexError. The histogram has a line for every category, in decreasing order of probability, with a bar proportional to the count to the nearest dash, 60 dashes for the greatest count; it raises without counts and after its header where all counts are zero.", "quantifier": "all numbers of categories, probabilities, numbers of draws, samples and densities, in exact arithmetic", "why_tests_cant": "These functions are the oracle of the sampling tests: a bias in the statistic, or an infinite p-value for impossible data, makes other tests pass or fail wrongly and shows up nowhere by itself.", "anchors": ["distributions/util.py: multinomial_goodness_of_fit, unif01_goodness_of_fit, density_goodness_of_fit, discrete_goodness_of_fit, score_to_empirical_kl, print_histogram"]}
{"id": "C74", "title": "bin_samples and histogram count what they say", "statement": "bin_samples(samples, k, support) with at least k samples returns k counts with sum the number of samples that differ by at most one, and k adjacent ranges such that each count is the number of samples in [bin_min, bin_max), the last range closed, with the support as outer ends. histogram(samples, bin_count) has at i the number of samples equal to i. The code satisfies the claim on ranges for distinct samples only, bin_samples raises IndexError with fewer samples than bins, and a negative sample is counted by histogram from the other end.", "quantifier": "all lists of samples, all numbers of bins, all supports", "why_tests_cant": "The ranges are wrong only when equal samples straddle a boundary; the one test uses distinct samples and two bins.", "anchors": ["distributions/util.py: bin_samples, histogram"]}
{"id": "C75", "title": "Predictive probabilities computed in single precision are normalised and accurate", "statement": "With every operation rounded to single precision and the library's table-driven logarithm, the scores BetaBernoulli.score_value returns for the two values are within 125e-6 of the logarithms of the exact predictive probabilities and their exponentials add up to one within 250e-6; the same holds for DirichletDiscrete with at most 256 values within 190e-6 and 380e-6, for the cached scores of a DirichletDiscrete mixture after any history of calls within 315e-6, for the scores of a DirichletProcessDiscrete group within 125e-6 and of a mixture of such groups and its shared state after any history of calls within 255e-6, both against the weights the shared state holds, and for the PitmanYor clustering scores (existing groups and one new group) within 125e-6 and 250e-6.", "quantifier": "all groups and hyperparameters in ranges far inside single precision, all values, all numbers of categories up to 256, all numbers of groups, all histories of the mixture", "why_tests_cant": "The tests compare a few random groups with a tolerance of 1e-3; the error depends on the cell of a 16384 entry table each argument falls into and on every rounding on the way.", "anchors": ["include/distributions/models/bb.hpp: Group::score_value", "include/distributions/models/dd.hpp: Group::score_value", "include/distributions/models/dd.hpp: MixtureValueScorer", "include/distributions/models/dpd.hpp: Group::score_value, MixtureValueScorer", "include/distributions/clustering.hpp: PitmanYor::CachedMixture, score_value", "include/distributions/special.hpp: fast_log"]}
{"id": "C76", "title": "The predictive density of the normal model in single precision", "statement": "The exponential of NormalInverseChiSq.score_value is a density, and the score is within 1/60 of the logarithm of the exact predictive density, in the library's single precision arithmetic. The code satisfies this with an error term that grows like (nu + 1)/2^13 with the number of observations only: after a million observations of mean zero and variance one the score is the same for every value within 7.5 standard deviations, so the computed density integrates to more than five, and a value seven standard deviations out scores as high as the mean.", "quantifier": "all hyperparameters and groups whose posterior is of moderate size, all values", "why_tests_cant": "The normalisation tests use groups of a few dozen values, where the term is invisible; it needs large groups, which the random tests never build.", "anchors": ["include/distributions/models/nich.hpp: Group::score_value, Scorer", "include/distributions/special.hpp: fast_log, fast_lgamma_nu"]}
{"id": "C77", "title": "The predictive probabilities of the count models in single precision", "statement": "GammaPoisson.score_value and BetaNegativeBinomial.score_value are within a fixed error of the logarithm of the exact predictive probability in the library's single precision arithmetic. The code satisfies this for Gamma-Poisson with an error bound (alpha + v + 1)/2^10 that grows with the posterior alpha: after a million observations of mean one hundred a zero scores 0, probability one, while its exact probability is below e^-99. For Beta-Negative-Binomial, against the probability without the binomial coefficient that score_value leaves out, the bound is (alpha + beta + r + v)/2^12, and every score is an integer once both posterior parameters reach 2^20, so a value of probability one half is scored off by more than 0.3.", "quantifier": "all hyperparameters and groups in the stated ranges, all values", "why_tests_cant": "The tests compare scores with the reference implementation on groups of a few dozen values, where the error is invisible.", "anchors": ["include/distributions/models/gp.hpp: Group::score_value, Scorer", "include/distributions/models/bnb.hpp: Group::score_value", "include/distributions/special.hpp: fast_log, fast_lgamma, fast_log_factorial"]}
{"id": "C78", "title": "The scalar functions behind the scores", "statement": "In exact arithmetic log_beta and fast_log_beta return the logarithm of Euler's integral for positive arguments and minus infinity otherwise; log_binom and fast_log_binom return the logarithm of the binomial coefficient; score_student_t and fast_score_student_t return the logarithm of the Student-t density, which integrates to one and is the predictive density of the normal model; lmultigamma returns the logarithm of the multivariate gamma function up to dimension 65536 and is off by 2^30 log(pi) in dimension 65537, where an unsigned product wraps. In single precision fast_log_beta is within (a + b)/10^4 of the exact value from 5/2 on, fast_log_binom(n, k) within (n + 3)/2^13 for 2 <= k <= n - 2, fast_score_student_t within 1/60 + (nu + 1)/2^13 for arguments of moderate size, and fast_log_binom(2^24, 1) returns 0.", "quantifier": "all arguments in the stated ranges", "why_tests_cant": "The tests do not call these functions at all except through the models, at a handful of small arguments.", "anchors": ["include/distributions/special.hpp: log_beta, fast_log_beta, log_binom, fast_log_binom, lmultigamma", "include/distributions/random.hpp: score_student_t, fast_score_student_t"]}
{"id": "C79", "title": "Dictionaries and messages of the Python bindings restore what they describe", "statement": "For every model, load(dump()) and protobuf_load(protobuf_dump()) of the Python wrappers restore shared parameters and groups exactly, whatever object they are loaded into, as long as every integer fits a C int. Where an integer does not fit: r of the beta negative binomial and values of the Dirichlet process model above 2^31 wrap through the dictionary and come back, but make protobuf_dump raise; a Dirichlet process group holding such a value, or a Gamma-Poisson sum of that size, fails to load its own dump. Loading a Dirichlet-discrete group leaves the C++ dimension as it was, so a group made by from_dict ignores its counts in score_data and refuses add_value; more than 256 categories write outside the array; counts of values without weight are lost by dump; beta0 is one minus the weights and may be negative; an error halfway leaves a half-loaded object.", "quantifier": "all parameter values, groups, table orders, prior contents of the object loaded into, and all ways of rounding double to float that keep floats fixed", "why_tests_cant": "The tests load and dump a few small examples and never look at integers near 2^31, at more than 256 categories, or at the dimension of a loaded group.", "anchors": ["distributions/lp/models/_*.pyx: _Shared.load, _Shared.dump, protobuf_load, protobuf_dump, _Group.load, _Group.dump", "distributions/lp/clustering.pyx: PitmanYor, LowEntropy load and dump", "distributions/mixins.py"]}
{"id": "C80", "title": "Mixtures and score arrays seen from Python", "statement": "Mixture methods of the Python wrappers refuse every group id outside the range, and pass ids in range on unchanged. score_value adds each group's score to the matching item of a contiguous array of the right length and touches no other memory; other lengths are refused. Appended groups score correctly after init. Exceptions, all proved: mixture[i] with negative i reads before the array; a for loop over a mixture sees every group and then raises AssertionError; with -O it reads past the end; a spaced array (scores[::2]) is left unchanged without an error; a reversed one is read past its end; a clustering's score array that cannot be resized keeps stale contents; score_value after append without init reads past the cache; negative counts are accepted and lower the sum; global ids of 2^31 and above cannot be looked up.", "quantifier": "all mixtures, group ids, values, arrays with any offset, stride, length and memory, with and without -O", "why_tests_cant": "The tests index with small non-negative ids, never iterate over a mixture, and always pass fresh contiguous arrays of the right length.", "anchors": ["distributions/lp/models/_*.pyx: Mixture", "distributions/lp/vector.pyx: vector_float_from_ndarray, vector_float_to_ndarray", "distributions/lp/mixture.pyx: MixtureIdTracker", "distributions/lp/clustering.pyx: score_value"]}
{"id": "C81", "title": "Converting and sampling scores in single precision is accurate", "statement": "With every operation rounded to single precision, the library's fast_exp and fast_log, scores_to_probs returns every probability with relative error at most 80e-6 + n/2^21 (plus 2^-120 absolute) and a total within 100e-6 + n/2^21 of one; log_sum_exp is within 165e-6 + n/2^21 + max|s|/2^24 of the exact value; sampling from scores with the uniform draw u returns an index whose interval of the cumulative probabilities contains u up to 80e-6 + n/2^21, so that each index is drawn with its probability up to twice that; the probability sample_prob_from_scores_overwrite returns with the index is as accurate as those of scores_to_probs.", "quantifier": "all score vectors of up to 2^20 entries no two of which are more than 10^9 apart, all draws, every C library whose logf(2) and pow(2, i/1024) are accurate to an ulp", "why_tests_cant": "Tests compare a few random score vectors with a tolerance of several percent; rounding errors accumulate with the length of the vector and depend on every bit of every score.", "anchors": ["include/distributions/random.hpp: scores_to_probs, sample_from_scores, sample_prob_from_scores_overwrite", "src/random.cc: log_sum_exp, scores_to_likelihoods", "include/distributions/special.hpp: fast_exp, fast_log"]}
{"id": "C82", "title": "Gibbs inference in single precision stays close to the posterior", "statement": "With every operation of the clustering, the feature scores, their caches and the sampler rounded to single precision: in every state reached by adding and removing points, the score of each group for a point is within (260 + (e + 10) K + 2 K^2)e-6 of the exact difference of log-posteriors, for K features whose own scores are within e * 1e-6 (125 for Beta-Bernoulli, 315 for Dirichlet-Discrete, 255 for Dirichlet-Process-Discrete with known words); resampling one point gives each clustering a probability within a step error of its full conditional probability; and the Gibbs loops always succeed and, after n passes, give each clustering a probability within (1 - eps)^j + j * points * step error of its posterior probability for every j up to n, so that the error does not grow with the number of passes and does not depend on earlier roundings.", "quantifier": "all numbers of points and passes within 2^32 group ids, all data, all lists of at most 1000 Beta-Bernoulli features or Dirichlet-Discrete features of one dimension up to 256 with hyperparameters from 2^-40 to 2^40, or Dirichlet-Process-Discrete features with alpha from 2^-20 to 2^40 and weights from 2^-40 to 1, all Pitman-Yor clusterings with alpha from 2^-40 to 2^40 and d = 0 or from 2^-40 to 1 - 2^-24, all ways of drawing an index within the stated distance of the ideal one, the sampler of the library among them", "why_tests_cant": "The error of a chain of rounded random steps is a property of its distribution over all clusterings; a drift of the caches or a bias of the draws of one part in ten thousand is far below what a goodness-of-fit test on samples can see, and no exact posterior is available beyond a few points.", "anchors": ["examples/mixture/main.py: ImageModel.Mixture, compress_gibbs, compress_seq_gibbs", "include/distributions/clustering.hpp: PitmanYor CachedMixture", "include/distributions/mixture.hpp: MixtureDriver, MixtureSlave", "include/distributions/models/bb.hpp: scorers and mixture cache", "include/distributions/random.hpp: sample_from_scores", "include/distributions/models/dd.hpp: MixtureValueScorer", "include/distributions/models/dpd.hpp: MixtureValueScorer"]}
{"id": "C83", "title": "Clustering mixtures seen from Python", "statement": "A PitmanYor.Mixture or LowEntropy.Mixture initialised with any counts that include an empty group and whose sum is an int holds exactly those groups, whatever it held before; counts without an empty group, or beyond int, raise. Then any program of add_value and remove_value calls with any Python integers, exceptions caught, runs without undefined behaviour while the sample size stays an int: a call that names no group, or removes from an empty one, raises and changes nothing, the others return whether a group appeared or vanished, and the mixture ends as the one init makes for the resulting sizes. score_value replaces the items of a contiguous array of the right length by the log probabilities of the groups and touches no other memory. Exceptions, all proved: the counts that count_assignments returns are always refused until a zero is appended; a refused init has already replaced the counts, and scoring then reads scores that were never computed, as scoring a new mixture reads an uninitialised member; negative counts are accepted; arrays of another length or with spaces are left as they were, or replaced, without an error; the low-entropy mixture cannot be scored once the sample is the whole dataset.", "quantifier": "all lists of counts, all programs of calls with all Python integers, all parameters, all arrays, all previous states of the object; scores for all 0 < alpha, 0 <= d < 1 in exact arithmetic", "why_tests_cant": "The repository calls these classes with valid ids in short sequences; histories mixing refused and accepted calls, objects reused after an exception, and integers outside int are unbounded families.", "anchors": ["distributions/lp/clustering.pyx: count_assignments, PitmanYorMixture, LowEntropyMixture", "include/distributions/clustering.hpp: PitmanYor CachedMixture", "include/distributions/mixture.hpp: MixtureDriver", "distributions/lp/vector.pyx: vector_float_to_ndarray"]}
{"id": "C84", "title": "Sampling functions seen from Python", "statement": "sample_prob_from_scores returns an index and its probability exp(s_i)/sum, prob_from_scores returns the same probability for that index and exp(s_j)/sum for every other one, and both take the same randomness; log_sum_exp returns log sum exp. sample_pair_from_urn returns items at two different positions; sample_discrete on a contiguous array draws from its items and returns one of its indices. sample_assignments refuses negative sizes and count_assignments refuses integers beyond int, by an exception. Exceptions, all proved: an index outside the list of scores reads beyond the vector unless it is beyond int; log_sum_exp of an empty list is 0 and sampling from one is undefined; an urn with fewer than two items or an empty array ends the Python process, because the C++ exception is not translated; sample_discrete on a spaced array draws from the neighbouring floats instead of its items.", "quantifier": "all score lists, indices, urns, arrays, sizes, dictionaries and random streams; probabilities in exact arithmetic", "why_tests_cant": "Agreement of two functions on probabilities and on the consumed randomness is a claim about all lists and streams; the failures end the process or read foreign memory, which a test cannot observe reliably.", "anchors": ["distributions/lp/random.pyx: log_sum_exp, sample_prob_from_scores, prob_from_scores, sample_pair_from_urn, sample_discrete", "distributions/lp/clustering.pyx: count_assignments, sample_assignments", "src/random.cc: score_from_scores_overwrite"]}
{"id": "C85", "title": "The reference low-entropy clustering", "statement": "The pure Python LowEntropy class either raises or returns, from sample_assignments(k), k group ids numbered in order of first appearance, for every random stream and any floating point behaviour; with uniform draws in [0,1) and exact arithmetic it always returns for k up to the dataset size, and draws every vector with the product of its own normalised exp(score_add_value). log_partition_function agrees with the C++ one for every number of items. score_counts should agree with the C++ one, and score_remove_value should undo score_add_value.", "quantifier": "all dataset sizes, sample sizes, count vectors, random streams; laws and scores in exact arithmetic", "why_tests_cant": "The Python and C++ classes are compared on a few examples to a tolerance; that the scores agree exactly when the sample size divides the dataset size, and the law of the sampled vectors, are statements about all sizes and all streams.", "anchors": ["distributions/dbg/clustering.py: LowEntropy", "src/clustering.cc: LowEntropy::score_counts, sample_assignments, log_partition_function"]}
{"id": "C86", "title": "The script that generates the low-entropy table", "statement": "The script that generates the table of the low-entropy clustering prior counts, for every number of items, exactly the clusterings of each shape, whatever order Python iterates its dictionaries in; its log partition function is the logarithm of the sum over all clusterings of the product of size^size. The 48 numbers in the C++ library and the constant of its approximation beyond the table are the script's values rounded to eight decimals. The script's probabilities for a sample of m of N items are those of the clusterings induced by low-entropy clusterings of all N items, and its pairwise number is the probability that two random items share a cluster. The library's scores of all clusterings of an incomplete sample add up, as probabilities, to the exponential of the difference between its approximate correction and the one the script calls true. The true correction of the score of a new cluster is the mean, over the clusterings in which the last item of the sample joins a cluster, of the error of the complete model's log odds; it is zero on complete data. Findings, proved: the library's correction and the true one are not equal, already with two of three items; on incomplete samples no score of a new cluster can make the library's predictive odds right, already with three of four items.", "quantifier": "all numbers of items, sample sizes, shapes and iteration orders of dictionaries; the table for all of its 48 sizes; counts and probabilities in exact arithmetic", "why_tests_cant": "The numbers in the library were pasted from a script; tests compare the library with itself or with another copy of the numbers. That the script counts every clustering once, and the marginals of every sample size, are statements about all sizes.", "anchors": ["derivations/clustering.py: get_larger_counts, get_counts, get_log_Z, get_probs, get_smaller_probs, get_subprobs, get_pairwise, true_postpred_correction, code", "src/clustering.cc: log_partition_function", "include/distributions/clustering.hpp: LowEntropy"]}
{"id": "C87", "title": "The goodness-of-fit test rejects true hypotheses at the level it names", "statement": "multinomial_goodness_of_fit, run at a level alpha on more and more independent draws from the very distribution it tests against, returns a p-value of at most alpha with probability tending to alpha, as Pearson's test does. The code satisfies this for data truncated to one category only. Untruncated, for every distribution on two or more categories and every level, the rejection rate stays above alpha by a fixed amount: with k equally likely categories the critical value c acts as c (k - 1) / k, so that with three categories the rate tends to alpha^(2/3), and with two categories, of any probabilities, c acts as c / 2. Truncated to two or more categories the statistic tends to a sum of squares of correlated normal variables, which is not chi-squared, so that some level is missed.", "quantifier": "all probability spaces, numbers of categories, distributions of positive probabilities and levels in (0, 1), in the limit of the number of draws, in exact arithmetic with an exact chi-squared survival function", "why_tests_cant": "The rate at which a test rejects correct samplers is a limit over random runs; the suite compares p-values with a threshold so small that the excess is not noticed.", "anchors": ["distributions/util.py: multinomial_goodness_of_fit"]}
{"id": "C88", "title": "The statistics of a normal group in single precision", "statement": "A NormalInverseChiSq group keeps a count, a mean and a count times variance, all updated in single precision. However many values are added, the accumulated variance is never negative and never decreases, and the mean never leaves the range of the values, whatever the rounding. Merging never makes the accumulated variance smaller than that of either part, merging with an empty group is exact, and the posterior variance of a group built by adding and merging is positive. After up to 2^20 values of size at most B the mean is within (n + 11) B / 2^25 of the exact mean and the accumulated variance within (4 n^2 + 40 n) B^2 / 2^24 of the exact one. Findings, proved: removing values breaks this (after adding one value four times and removing it twice the accumulated variance is minus one, and with a small prior variance the posterior variance is negative); the accumulated variance stops growing at 2^26 times the square of the largest value, so that of 2^30 values it can be a sixteenth of what it should be; merging can put the mean outside the range of the values.", "quantifier": "all sequences of single-precision values of fewer than 2^31 values, all trees of merges, all priors in the stated range; rounding to nearest without overflow, which is shown not to occur for bounded values", "why_tests_cant": "Tests add a few dozen values of moderate size and compare to a tolerance; that no sequence of values can make the variance negative is a statement about every rounding of every sequence, and the stall needs more than 2^26 values.", "anchors": ["include/distributions/models/nich.hpp: Group::add_value, remove_value, merge, Shared::plus_group"]}
{"id": "C89", "title": "Adding and removing the same observation does not drift", "statement": "NormalInverseWishart and GammaPoisson groups keep sums in single precision; a sampler adds and removes the same observations millions of times. Adding and removing the same observation over and over changes a group at most once: any number of further cycles leaves every statistic exactly as the first one did, whatever the rounding. On vectors of integers, while the number of observations times the square of the largest coordinate stays below 2^24, every run of additions, removals and merges is exact, so that a group is determined by the observations in it. Findings, proved: outside this range removing does not undo adding, and the posterior scale matrix need not be positive definite: in every dimension, with an identity prior matrix centred at the observations, adding the vector of all 4097 three times gives a posterior matrix with -3 on its diagonal.", "quantifier": "all groups and vectors of single-precision numbers, all dimensions, all numbers of cycles; all runs of additions, removals and merges of integer vectors; rounding to nearest with ties to even, no overflow", "why_tests_cant": "That errors do not accumulate is a statement about all sequences and all bit patterns (it fails for other rounding rules); tests add and remove small data sets once and compare to a tolerance.", "anchors": ["include/distributions/models/niw.hpp: Group::add_value, remove_value, merge, Shared::plus_group", "include/distributions/models/gp.hpp: Group::add_value, remove_value"]}
{"id": "C90", "title": "The image example samples pixels by darkness and paints the predictive density", "statement": "In the mixture example, sample_from_image(image, n) yields n pixels independently, each with probability proportional to how much darker it is than the brightest pixel, as coordinates that run from -1 to 1 on both axes; the small constant added to the row sums does not change this. visualize_dataset finds the pixel of every such sample again and counts how often each was drawn. In every state that the inference loops of the example reach, the sum of the exponentiated scores of a point not in the mixture is its predictive density given the points that are, and synthesize_image paints it at the shade 255 (1 - p / max p): between 0 and 255 and 0 where the density is largest. Findings, proved: on an image of one colour every sample is the first pixel, whatever is drawn; an image one pixel high or wide cannot be sampled from.", "quantifier": "all images of at least two by two pixels, all sample counts, all lists of pixels; all reachable states of the example's loops, all parameters with alpha > 0 and 0 <= d < 1; exact arithmetic and an ideal source of uniform numbers", "why_tests_cant": "The example has no test of its output beyond running; the law of the samples and the density are statements about probabilities for every image and state.", "anchors": ["examples/mixture/main.py: sample_from_image, synthesize_image, visualize_dataset", "distributions/dbg/random.py: sample_discrete"]}
{"id": "C91", "title": "Class methods of the Python wrappers: through messages and from values", "statement": "Shared.from_protobuf reads from a message what Shared.to_protobuf wrote to it, rounded to single precision, whatever the message and the objects used on the way held before; dictionaries that do not fit raise (r of the beta negative binomial outside 0..2^31-1, invalid Pitman-Yor parameters). Group.from_dict(raw).dump() returns raw rounded to single precision and raises exactly when a number does not fit a C int. Group.from_values(model, values).dump() holds the counts of the values (Beta-Bernoulli, Dirichlet-discrete), their number and sum (Gamma-Poisson, beta negative binomial), or their number, mean and squared deviations (normal, exact arithmetic); a Dirichlet-discrete group made this way scores its counts, unlike one made from a dictionary. Findings: more than 256 alphas are undefined behaviour in to_protobuf; LowEntropy.to_protobuf raises on every dictionary; the count models accept negative values, which cancel against others in the sum.", "quantifier": "all dictionaries, messages, lists of values, constructors leaving anything in the new object, and ways of rounding double to float that keep floats fixed", "why_tests_cant": "The tests pass a few examples through messages; that uninitialised members of new objects never show, and that exactly the unrepresentable dictionaries raise, are statements about all inputs.", "anchors": ["distributions/mixins.py: ProtobufSerializable, GroupIoMixin, SharedIoMixin", "distributions/lp/models/_*.pyx: Group.init, Group.add_value"]}
{"id": "C92", "title": "The derivation scripts for the beta-binomial model and log gamma", "statement": "In the derivation script of the beta-binomial model, the predictive scores of counts taken one after another add up to the total score of the statistics they leave; both are the logarithm of the probability that tosses of one coin with a beta-distributed probability of heads show the counts; score and statistics do not depend on the order, and the predictive probabilities of the next count add up to one after any counts. The two simulations of the script draw independent counts, or independent pairs of counts of the same coin, with exactly these probabilities. Its histogram counts every pair in its own cell if both counts take the smallest and the largest possible value somewhere. Findings, proved: otherwise the cells are spread over the range of the samples, so samples are counted in the first row although none has a first count of zero; adding one to every cell makes the probabilities add up to more than one; the fourth-order approximation of log gamma reads the coefficients of the fifth order and returns the fifth-order value less its constant divided by the argument; Gauss's approximation writes pi without its decimal point and is too large by 6.8 to 7.1 everywhere.", "quantifier": "all parameters, numbers of tosses, lists of counts, numbers of samples, states of an ideal generator; all arguments from 5/2 on for log gamma; exact arithmetic", "why_tests_cant": "The script compares two lists of two counts with a simulation by eye, and plots its approximations; nothing asserts.", "anchors": ["derivations/betabinomial.py: simone, simtwo, add_dp, compute_post_pred, compute_total_likelihood, two_d_hist, test_post_pred_equal_likelihood", "derivations/loggamma.py: gammaln_approx_fourth_order, gammaln_approx_fifth_order, gammaln_gauss"]}
{"id": "C93", "title": "Sizes in the run-time-sized normal-inverse-Wishart model", "statement": "In the normal-inverse-Wishart model whose dimension is known only at run time, the one behind the Python module, calls whose parameters, statistics and values have one dimension do what the model of that fixed dimension does, and no size check fires. However a group is updated, when the calls return its statistics have the dimension of the parameters. An update with a value of another dimension fails at debug level 3; an update with a group of another dimension, and scoring a value of another dimension, are checked by Eigen only: the call aborts, or is undefined where Eigen's checks are compiled out, as in the release build. With Eigen's checks no call is undefined at any sizes unless the count overflows. Parameters and groups that are dumped to Python load as they were. Findings, proved: load accepts a scale matrix of any shape, after which every score and sample of a new group aborts or is undefined; a one-dimensional array for the matrix is not rejected but read beyond its shape.", "quantifier": "all dimensions, sizes, sequences of updates, debug levels, builds with and without Eigen's checks, linear algebra routines and generators", "why_tests_cant": "The tests use three dimensions and consistent arguments; undefined behaviour need not show.", "anchors": ["include/distributions/models/niw.hpp: NormalInverseWishart<-1>", "distributions/_eigen.pyx", "distributions/lp/models/niw.pyx: load, dump", "distributions/lp/models/_niw.pyx"]}
{"id": "C94", "title": "The licence tool", "statement": "update and strip of the licence tool know the comment symbol of every file they list, return, and touch the listed files only: those with a C, C++, protocol, Python or TeX ending that are not generated and not in .git, vendor or doc. strip leaves the lines from the first one that is neither blank nor a comment, without white space at their ends. update writes the licence as a comment, a blank line (two before a class in a Python file) and those lines. Running a command twice is running it once; an update after an update with another licence does what it would have done at first, and strip undoes update, up to what strip removes anyway. Findings, proved: every comment before the code is lost, be it a #! line or documentation: a file with any comments and blank lines put before it is updated to the same text; a file of comments only gets no licence from update and is emptied by strip.", "quantifier": "all directory trees, licences, file contents and comments", "why_tests_cant": "The tool has no tests; idempotence and loss of text are claims about all contents.", "anchors": ["update_license.py: FILES, HEADERS, read_and_strip_lines, write_lines, strip, update"]}
{"id": "C95", "title": "The reference Dirichlet-process parameters", "statement": "In the reference implementation of the Dirichlet-process model, every sequence of added and removed values that removes only values that are held completes; the counts are those of the values held, exactly these values have weights, nothing is negative, and the total of all weights and the leftover weight never changes (unlike in the compiled model, C38, C39). Removing a value that is not held, and the reserved value, raise and change nothing. A new value takes a Beta(1, gamma) fraction of the leftover. realize ends, gives new values from the first unused number on a count of one each, keeps the known values as they were, and leaves leftover 0 and the same total. load accepts exactly the weights in [0, 1] and computes the leftover from them; parameters with total 1 are read back from their dictionary and, if the numbers fit the fields, from their message; so are groups; messages whose lists differ in length are refused. Findings, proved: load accepts weights that add up to more than 1, and leaves refused weights in the object; if counts and weights are for different values, which load accepts, realize may raise half-way and no message can be written; a group message that names a value twice gives a total that is not the sum of the counts; a group with a negative count has a dictionary but no message.", "quantifier": "all histories, parameters, dictionaries, iteration orders, messages, beta variates; exact arithmetic", "why_tests_cant": "The total of the weights is not tested, random histories never meet inconsistent tables or messages with repeated values, and termination of realize depends on the draws.", "anchors": ["distributions/dbg/models/dpd.py: Shared, Group.load, Group.dump, Group.protobuf_load, Group.protobuf_dump"]}
{"id": "C96", "title": "Input and output of the reference classes", "statement": "Parameters and groups of the Beta-Bernoulli, Beta-Negative-Binomial, Gamma-Poisson, Normal-Inverse-ChiSq and Dirichlet-Discrete reference classes are read back from their dictionary as they were (Dirichlet-Discrete groups: counts of 64 bits) and from a message with their floats rounded to single precision, whatever the object and the message held before; integers must fit 64 unsigned bits (Dirichlet-Discrete: 63). Parameters written by a reference class are read by the compiled class as their roundings, and those written by the compiled class are read exactly. The dictionary of a Beta-Bernoulli, Beta-Negative-Binomial, Gamma-Poisson or Normal-Inverse-ChiSq reference group is accepted by the compiled class exactly if its integers are of 32 bits, and comes back as the same group with floats rounded. So does that of a Dirichlet-Discrete group with at most 256 non-negative counts of a total of 32 bits. Normal-Inverse-Wishart parameters are accepted from a dictionary exactly when the mean is a vector, kappa is positive, the first two axes of psi are as long as the mean and nu is at least that length; from a message exactly when psi has the square of that length and nu is at least it; what is accepted is read back. Findings, proved: a group with a negative count has no message, and the attempt leaves the message half written; Dirichlet-Discrete messages with counts of 2^63 or more are refused; a Normal-Inverse-Wishart message with kappa <= 0 is read although its own dictionary is then refused; a psi with a third axis is accepted and cannot be written to a message; a Normal-Inverse-Wishart group with negative count has a message, but its dictionary is refused after the count was taken over.", "quantifier": "all parameters, groups, dictionaries, messages and earlier contents of objects and messages", "why_tests_cant": "The test only round-trips the example parameters and small groups; acceptance is an equivalence over all shapes and values, and failures are about what is left behind.", "anchors": ["distributions/dbg/models/{bb,bnb,gp,nich,dd,niw}.py: Shared.load, dump, protobuf_load, protobuf_dump and the same of Group"]}
{"id": "C97", "title": "Working directories and temporary directories", "statement": "chdir runs its block in the directory and tempdir in a new directory that is removed afterwards (after an exception, only if cleanup_on_error); the outcome of the block is passed on, and the working directory is the one before, as long as that directory still exists. A block that changes only what is in the temporary directory leaves no trace at all. If the directory cannot be entered or made, the block is not run and nothing changes. Programs that write files and nest both at will end in the working directory they started in with no directory lost, and none left if all clean up. Findings, proved: a block that removes the directory the process came from makes both raise although the block completed, and the temporary directory is never removed; a block that removes the temporary directory makes tempdir raise; the clean command of the example never removes anything: its test is inverted.", "quantifier": "all file systems, blocks, outcomes of blocks and nestings", "why_tests_cant": "The context managers are only used, never tested; restoring the working directory is a claim about all blocks, exceptions and nestings.", "anchors": ["distributions/fileutil.py: chdir, tempdir", "examples/mixture/main.py: directories made at import, clean"]}
{"id": "C98", "title": "The text of the generated table, and the listings of models", "statement": "The text that the script writes for the table of the low-entropy prior holds the numbers in order, a fixed number in each row, with a comma between any two, also at the ends of rows, and none at the end: to a parser that skips blanks it is the numbers separated by single commas, so that the array has as many entries as there are numbers. A width of zero raises if there are any numbers. The command-line listings name every model (flavor) once, in order, with exactly its flavors (models), in order, and both name the same pairs.", "quantifier": "all lists of numbers, widths and lists of models", "why_tests_cant": "The script and the commands are not tested; that no comma or number is lost at any row boundary is a claim about all lengths and widths.", "anchors": ["derivations/clustering.py: number_table", "distributions/__main__.py: flavors_by_model, models_by_flavor"]}
{"id": "C99", "title": "Printing and comparing repeated fields of messages", "statement": "Writing a repeated field to a stream appends its entries between brackets with commas between them; for fields of unsigned integers the text tells which entries the field has. Two repeated fields compare equal exactly if they have the same number of entries and no two at the same place differ: for integers if they are the same, for floats if the entries stand for the same numbers. Messages compare equal exactly if the bits of their floats do. Findings, proved: a repeated field that holds a NaN does not equal itself although its message does; fields that differ in the sign of a zero are equal although their messages are not.", "quantifier": "all lists of entries, all streams, all bit patterns of floats", "why_tests_cant": "Only a few messages are compared in tests; that the printed form loses nothing and that the two kinds of comparison agree or not is a claim about all lists and all bit patterns.", "anchors": ["include/distributions/io/protobuf.hpp: operator<<, operator== of RepeatedField, RepeatedPtrField, Message"]}
