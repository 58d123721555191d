{
 "C06": {
  "status": "proved",
  "note": "The _refuted theorem only shows that the proviso s > -1000 is needed."
 },
 "C09": {
  "status": "proved",
  "note": "Exact characterisation; the documented unit (ms) is refuted by a concrete history."
 },
 "C12": {
  "status": "proved",
  "note": "The plain claim is refuted by a concrete schedule (C12_visible_refuted); C12_lost_only_by_race is the exact claim, C12_no_race the iff when insertions do not overlap."
 },
 "C13": {
  "status": "proved",
  "note": "The plain claim is refuted (C13_never_earlier_refuted); C13_earlier_only_by_race is the exact claim."
 },
 "C18": {
  "status": "proved",
  "note": "The plain claim is refuted (C18_synchronised_refuted); the restated claim is proved in every interleaving."
 },
 "C25": {
  "status": "proved",
  "note": "Exact characterisation (iff); the naive claim \"never panics\" is refuted by a concrete history."
 },
 "C26": {
  "status": "proved",
  "note": "Exact characterisation for every history and lawful rounding; \"finite\" is refuted."
 },
 "C27": {
  "status": "proved",
  "note": "Formula for every history and rounding; quotient over exact arithmetic when creation reads 0 ms; otherwise refuted by a concrete history."
 },
 "C29": {
  "status": "proved",
  "note": "Exact for 5 s, upper bound for intervals dividing 5 s; concrete histories show both can fail otherwise."
 },
 "C30": {
  "status": "proved",
  "note": "The _refuted theorem shows the divisibility hypothesis of C30_one_winner is needed."
 },
 "C35": {
  "status": "proved",
  "note": "Bound for every interleaving, and a family of interleavings that reaches it."
 },
 "C36": {
  "status": "proved",
  "note": "Exact size; the bound by the limit is refuted."
 },
 "C37": {
  "status": "proved",
  "note": "iff; the naive claim is refuted."
 },
 "C40": {
  "status": "proved",
  "note": "iff over all iteration orders; the naive claim is refuted."
 },
 "C41": {
  "status": "proved",
  "note": "Injective under the stated syntactic conditions; two different colliding names are exhibited."
 },
 "C45": {
  "status": "proved",
  "note": "The three _refuted theorems are the stated exceptions."
 },
 "C46": {
  "status": "proved",
  "note": "Finite table."
 },
 "C47": {
  "status": "proved",
  "note": "The _refuted theorem is the stated exception."
 },
 "C50": {
  "status": "proved",
  "note": "Both cases exact; the naive claim is refuted."
 },
 "C54": {
  "status": "proved",
  "note": "Range theorem for every lawful rounding that represents the integers used; the _refuted theorem shows the proviso is needed."
 },
 "C56": {
  "status": "proved",
  "note": "The _refuted theorem shows the overflow proviso is needed."
 },
 "C60": {
  "status": "proved",
  "note": "Both cases (q strictly between two cumulative weights, q equal to one) exact; the naive definition is refuted."
 },
 "C63": {
  "status": "proved",
  "note": "The _refuted theorem is the stated exception for an overlapping Size()."
 },
 "C66": {
  "status": "proved",
  "note": "The _refuted theorem shows that the clock proviso is needed."
 },
 "C68": {
  "status": "proved",
  "note": "The _refuted theorem is the stated exception."
 },
 "C69": {
  "status": "proved",
  "note": "The plain claim is refuted (C69_refuted); C69_exact with C69_slip is the exact claim."
 },
 "C70": {
  "status": "proved",
  "note": "Exact set of possible snapshots; three concrete histories show the naive claim and both provisos."
 },
 "C73": {
  "status": "proved",
  "note": "The _refuted theorem is the stated exception (a rounded difference may accept slightly more)."
 },
 "C74": {
  "status": "proved",
  "note": "The _refuted theorem is the stated exception."
 },
 "C78": {
  "status": "proved",
  "note": "The _refuted theorem is the stated exception."
 },
 "C81": {
  "status": "proved",
  "note": "Sound for every schedule; complete under the stated proviso; C81_complete_refuted shows the proviso is needed."
 },
 "C86": {
  "status": "proved",
  "note": "Reservoir theorems for the uniform, the decaying and the bucket reservoir; the count and average theorems hold for any reservoir in small steps."
 },
 "C87": {
  "status": "proved",
  "note": "The _refuted theorems are the stated exception."
 },
 "C88": {
  "status": "proved",
  "note": "A race is two enabled conflicting accesses in a sequentially consistent execution. The _refuted theorems are the stated exceptions. Which accesses are atomic is read off the source and written in Model/Accesses.lean; C88_honest proves that the steps access nothing else."
 },
 "C89": {
  "status": "proved",
  "note": "Counting over finite sets of draws, in exact arithmetic (Arith.Exact): the chance is the fraction of the draws. Ties are excluded (NoTies): with equal priorities the map keeps only one of the two."
 },
 "C90": {
  "status": "proved",
  "note": "sync.Map.Range is modelled by its documented contract. The _refuted theorem is the stated exception."
 },
 "C91": {
  "status": "proved",
  "note": "Links the small-step machines to the sequential models. Partial correctness: the call is assumed to have ended (that it ends is C87). A compass with each of the three reservoirs; the uniform reservoir and the fast compass on their own too (C91_uniform_*, C91_fast_*)."
 },
 "C92": {
  "status": "proved",
  "note": "Assumes math.Exp within 2^-52 relative error for every float64 in [-1,0] (Spec.GoodExp). Counts below 2^53 per tick. In a compass the interval is 0 (C26), so this is about the averages as constructed by ewma.go."
 },
 "C93": {
  "status": "proved",
  "note": "Assumes of math.Sqrt only that for every float64 it is finite and within 2^-52 relative error (Spec.GoodSqrt); C93_sqrt: the square root of IEEE-754 (Model/Sqrt.lean) is the nearest float64 (C93_sqrt_special: what it is outside the non-negative numbers), so C93_uniform_stddev_ieee and C93_weighted_stddev_ieee have no such hypothesis. C93_float64, C93_nearest, C93_ties, C93_overflow: the rounding of the model against Spec/Float64.lean. Sums that fit int64 are a hypothesis (C56 shows what happens to the mean otherwise)."
 },
 "C94": {
  "status": "proved",
  "note": "Weighted snapshots: stated for any sorted arrangement of the samples (the Go sort is not stable). Uniform: differences of values below 2^63, as C54."
 },
 "C95": {
  "status": "proved",
  "note": "The reservoir must not panic (C25/C77: the library's do not) and the interval is at least 1 s."
 },
 "C96": {
  "status": "proved",
  "note": "Positive theorems with their exact conditions, and the two refutations with witnesses."
 },
 "C97": {
  "status": "proved",
  "note": "One interval is the exact condition for the positive theorems (C97_straddle_refuted shows the need). The sums are int64 sums; C97_mean assumes they stay below 2^53. C97_whole_*: the same for the whole compass, where recording calls, rate getters and several snapshots overlap (Proofs/WholeBucketSnapshot: every schedule of the whole compass is, for each of its snapshots, a schedule of the pair of counters)."
 },
 "C98": {
  "status": "proved",
  "note": "C98_garbage, C98_counter, C98_sequential, C98_compass, C98_compass_bucket, C98_fast: the bounds, by invariants over all schedules. C98_tight: N+2 attained. C98_registry_refuted, C98_groups_refuted: entries and groups grow without bound, for every n."
 },
 "C99": {
  "status": "proved",
  "note": "C99_anytime, C99_quiescent, C99_settles, C99_mean for compasses; C99_fast, C99_fast_counts, C99_fast_settles for fast compasses. Combines the registry model (C32, C33, C47, App.object) with the small-step models of the objects (C80, C83, C86, C87, C98)."
 },
 "C100": {
  "status": "proved",
  "note": "C100_program (registries, manager and the metrics together), and what has then been counted: C100_program_counts, C100_program_fast; C100_compass (any reservoir whose own calls end), with C100_compass_uniform, C100_compass_decaying, C100_compass_bucket; the parts: C100_bucket_counter, C100_registry, C100_decaying, C100_ewma, C100_hash_key, C100_uniform, C100_fast_compass, C100_ticks. C100_uniform_refuted: with the largest random word at every draw nextRandomPos never ends (a condition on the source is needed, and the statement has it)."
 },
 "C101": {
  "status": "proved",
  "note": "C101_covers, C101_covers_registry, C101_covers_decaying: all racy unsynchronised loads (C88) are in steps that may see old values; C101_fresh: with no old values it is the interleaving semantics. Averages: C101_ewma_exactly_once, C101_ewma_serialisable. Compass: C101_compass_exactly_once, C101_compass_schedule. Bucket counters: C101_bucket_sums, C101_reported_exact, C101_buckets_ordered, C101_credited_to_a_reading, C101_lower_bound. Registry: C101_same_metric, C101_entries_stay, C101_distinct, C101_one_registry_per_group, C101_keys, C101_kinds, C101_refused_only_if_full. Decaying reservoir: C101_decaying_no_panic, C101_decaying_recorded, C101_decaying_capacity, C101_decaying_due, C101_decaying_top. What breaks: C101_visible_refuted, C101_limit_refuted, C101_disabled_refuted, C101_rescale_once_refuted, C101_weight_refuted. Not modelled: stores that become visible in another order than they are made, and objects seen before they are initialised."
 },
 "C102": {
  "status": "proved",
  "note": "C102_maps_are_copies, C102_enumerations (simulation by the registry of C32-C38), C102_entries_are_shared, C102_assigning_refuted; C102_counters_are_shared, C102_success_at_most_refuted; C102_enable_metrics, C102_all_is_shared, C102_enable_metrics_refuted. One goroutine."
 },
 "C103": {
  "status": "proved",
  "note": "C103_reads_numbers, C103_reads_strings, C103_reads_levels, C103_leaves_others, C103_errors, C103_round_trip; C103_limits_cannot_be_read, C103_limits_are_defaults, C103_limits_are_not_written, C103_limit_refuted; C103_seconds, C103_seconds_refuted. The behaviour of encoding/json (dominance of equal tags, folding of keys, type errors, omitempty) is modelled from its documentation and source; the text of documents is not modelled, nor are strings that are not UTF-8."
 },
 "C104": {
  "status": "proved",
  "note": "C104_ewma_range, C104_ewma_idle, C104_ewma_accurate; C104_percentile_errors, C104_percentile_range, C104_percentile_monotone, C104_percentile_accurate, C104_percentile_negative_refuted; C104_uniform_variance, C104_uniform_stddev, C104_weighted_mean, C104_weighted_variance, C104_weighted_stddev. The mean of a uniform snapshot and the percentiles of a weighted one contain no product that feeds an addition."
 },
 "C105": {
  "status": "proved",
  "note": "C105_uniform_positions; C105_held, C105_never_grows, C105_readings, C105_burst, C105_size_refuted. The algorithm of math/rand is not modelled, only the documented sentence about seeds; draws equal to zero are excluded by hypothesis."
 },
 "C106": {
  "status": "proved",
  "note": "C106_ewma, C106_mean_rate, C106_bucket_mean, C106_seconds, C106_delta_compare, C106_uniform, C106_weighted, C106_decaying; C106_negative_unit_refuted. math.Sqrt and math.Exp are any functions that are those of the other model apart from the sign of zero; Exp gives neither a negative number nor -0, Sqrt gives -0 for -0 only. Draws are not -0 (Float64() is not)."
 },
 "C107": {
  "status": "proved",
  "note": "C107_covers, C107_any_value, C107_in_range, C107_sums, C107_bucket_exact, C107_reported, C107_visible; C107_unpublished_refuted, C107_reported_refuted, C107_backwards_refuted. Atomic operations act on the memory as it is; a timestamp that is not visible reads as 0 (fresh memory)."
 },
 "C108": {
  "status": "proved",
  "note": "C108_rescale, C108_values; C108_all_kept_refuted (binary64, one hour, two priorities rounded to one number)."
 },
 "C109": {
  "status": "proved",
  "note": "C109_weights, C109_mean, C109_percentile, C109_stddev. Which updates are held: C64 (exact arithmetic) and C64_one_update (one step, any arithmetic). A witness arithmetic (binary64, exponential within 1 ulp) is constructed (good_lawful, good_exp)."
 },
 "C110": {
  "status": "proved",
  "note": "C110_whole, C110_whole_anytime, C110_reservoir, C110_counts, C110_quiescent, C110_panics_iff, C110_limit, C110_bucket_counters, C110_one_winner, C110_schedule, C110_covers, C110_any_value, C110_same_code; with a bucket reservoir, with such loads too: C110_bucket_anytime, C110_bucket_quiescent, C110_bucket_covers. A compass only calls TickN, which holds the average's mutex. Termination: C110_ends (any reservoir), C110_ends_uniform, C110_ends_decaying, C110_ends_bucket."
 },
 "C22": {
  "status": "proved",
  "note": "The _any_load theorems: the load in Tick (ewma.go:83, 86) may return any number."
 },
 "C52": {
  "status": "proved",
  "note": "C52_fair, C52_every_subset over positions; C52_words, C52_words_return over the words of the source (so 1 / (k over capacity) in the limit). The words of different updates are taken as independent; C105 says what is not so about the seeds."
 },
 "C111": {
  "status": "proved",
  "note": "C111_64bit_* and C111_32bit_*. The layout rule is the gc compiler's, the sizes of sync.Mutex and sync.RWMutex are those of the Go library; sequential calls (on 32 bits each call fails at its first atomic operation, before it changes anything)."
 },
 "C112": {
  "status": "proved",
  "note": "C112_bucket_counter, C112_uniform, C112_bucket_reservoir, C112_compass, C112_compass_with_type, C112_fast_compass. That memory may run out is not modelled. C67 says what a decaying reservoir with a capacity of 0 or less does."
 },
 "C113": {
  "status": "proved",
  "note": "C113_anytime, C113_quiescent, C113_fast, C113_covers; for one compass with a bucket reservoir C110_bucket_anytime, C110_bucket_quiescent, C110_bucket_covers. What the interval of a counter is, which only the constructor stores, is not left open. The loads of the number of metrics in a registry and of the manager's switch return what was stored last here; C121 lets them return anything. Termination: C113_settles, C113_settles_counts, C113_settles_fast."
 },
 "C114": {
  "status": "proved",
  "note": "C114_old, C114_old_twice, C114_new, C114_newer; chances are counted over all N^n sequences of draws. Exact arithmetic (e^alpha a rational b, C109 bounds what float64 adds to weights) and independent draws: the code seeds a generator from the clock for every update, so that draws at equal clock readings are equal (C105), which is outside this property."
 },
 "C115": {
  "status": "proved",
  "note": "C115_top and C115_held for every lawful arithmetic; C115_old, C115_new, C115_newer for binary64 and any math.Exp accurate to 1 ulp (chances counted over all 2^(53 n) sequences of draws). This is C64, C89 and C114 without the assumption of exact arithmetic, up to the first rescale; a rescale rounds priorities once more and can merge samples (C108). Independent draws: the code seeds a generator from the clock for every update (C105)."
 },
 "C116": {
  "status": "proved",
  "note": "Streams need not have different values (C52 counts subsets of different values). The random words are assumed to be independent and uniform (counted over all tables); the code seeds a math/rand source from the clock for every update (C105). Values below 2^52 in size for the quantiles. The tail bound is Hoeffding's inequality for sampling without replacement, proved through the factorial moments of the number of sampled values in a set; it uses Mathlib's Hoeffding lemma for a two-point measure."
 },
 "C117": {
  "status": "proved",
  "note": "Exact arithmetic with e^(alpha t) = b^t, as for C64, C75, C89 and C114. Draws are independent, each any of k/N, k < N, with the same chance; the term n^2/N is for draws of zero and equal priorities. Percentiles are not included: GetValue of a weighted snapshot is off by one sample in the upper half (C60)."
 },
 "C118": {
  "status": "proved",
  "note": "Calls do not overlap. The decaying part uses exact arithmetic with e^(0.015 t) = b^t (as C64, C117); the uniform part is for float64 rounding. Unlike C77 no call is required to return: a call that panics on an unknown error code has recorded its duration. Tables of words for which a search would not end are left out (the code would still be looping)."
 },
 "C119": {
  "status": "proved",
  "note": "The schedule is fixed before the words are drawn: the scheduler does not look at the positions drawn (a scheduler that does can bias which words end in time, and so the condition that all updates are through). The order of the updates is the order in which they hold the lock. More than 2^63 calls are excluded. As in C51, C52 and C116 the words are those of an ideal source; the code seeds a generator anew for every draw (C105)."
 },
 "C120": {
  "status": "proved",
  "note": "Statistics that need a recent measurement say so: when everything held is older, all weights may have underflowed (C109). Beyond the first hour the chances are those of C114 in exact arithmetic. The random numbers are those of an ideal source; the code seeds a generator anew for every draw (C105)."
 },
 "C121": {
  "status": "proved",
  "note": "What the limit promises (C34, C35) cannot hold when the count may be seen as anything; with old values see C101. Termination: C121_settles, C121_settles_counts, C121_settles_fast."
 },
 "C122": {
  "status": "proved",
  "note": "C122_query: a query that runs load by load beside the calls, each of whose loads may return something else than what was stored last (if some timestamp was not visible yet to it, an interval said to begin at 0, which is how that looks, is excepted). C122_counter and C122_compass: a query at one moment, which may see any ring."
 },
 "C123": {
  "status": "proved",
  "note": "C123_fast: any sequential history; C123_anytime: any interleaving, also with a call inside; C123_anywhere: the whole program. These take the query at one moment; C123_query is a query that runs load by load, at a category, beside the small steps of Record calls for this and other categories (Model/FastCompassReader.lean, loads return what was stored last), and C123_query_any_loads one whose loads may return any ring, earlier counts and timestamps not visible yet (Model/FastCompassReaderWild.lean; C123_query_covers: the former runs are among the latter). C123_sum: in numbers. C123_limit_refuted shows that the bound on the milliseconds is needed. That a getter beside the insertion of a new category can crash is C18."
 }
}