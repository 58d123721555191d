{"id": "C01", "title": "Counter is an exact two's-complement sum", "statement": "After any sequence of Inc/IncN/Dec/DecN calls on a Counter, GetCount() is the sum of all increments minus all decrements, reduced to int64 two's complement (so exactly the true sum whenever that fits in an int64), whatever order the calls were applied in; DecN(MinInt64) is no exception.", "quantifier": "every finite sequence of counter operations with arbitrary int64 arguments, and every reordering of it", "why_tests_cant": "Ranges over all histories and all int64 arguments including overflow; tests use three literals.", "anchors": ["impl/counter_impl.go: counterImpl.Inc/IncN/Dec/DecN/GetCount"]}
{"id": "C02", "title": "BucketCounter total is independent of time", "statement": "For a BucketCounter created with total counting on, GetCount() equals the int64 sum of everything passed to Update/UpdateN/Inc/IncN minus Dec/DecN, no matter what the clock did between calls and how many buckets were evicted; with total counting off it is always 0.", "quantifier": "every history of updates with arbitrary (even non-monotone) clock readings, every interval >= 1s and bucket count >= 0", "why_tests_cant": "Must hold for all clock behaviours and eviction histories.", "anchors": ["impl/default_bucket_counter.go: BucketCounterImpl.UpdateN, GetCount"]}
{"id": "C03", "title": "Per-interval counts are exact for the newest N active intervals", "statement": "With a clock that never goes backwards (from a non-negative time), GetBucketCountsSince(s), s >= 0, at time t returns exactly one entry for each of the N most recent distinct intervals in which an update happened that starts at or after s and not after t; its key is the interval start in ms and its value is the int64 sum of all the updates made in that interval.", "quantifier": "every history of (time, amount) updates with non-decreasing times, every N, every interval >= 1s, every startTime >= 0 and query time", "why_tests_cant": "Needs every history length, every wrap-around position of the ring, every gap pattern.", "anchors": ["impl/default_bucket_counter.go: UpdateN, GetBucketCountsSince", "impl/bucket_queue.go: addLast, getBucketList"]}
{"id": "C04", "title": "A backwards clock step never loses or duplicates an update", "statement": "If the clock goes backwards, an update is credited to the latest interval seen so far: every entry returned by GetBucketCountsSince(s) (s > -1000) is, for one of the N newest distinct 'latest interval so far' values, the int64 sum of exactly the updates made while that was the latest interval, and each such interval that is in range is reported.", "quantifier": "every history with completely arbitrary clock readings", "why_tests_cant": "Arbitrary clock histories cannot be enumerated.", "anchors": ["impl/default_bucket_counter.go: UpdateN (currentTs > oldBucket.timestamp)", "impl/bucket_queue.go"]}
{"id": "C05", "title": "The ring returns the N newest buckets, newest first", "statement": "After any number of insertions the bucket ring lists exactly its N most recently inserted buckets (or placeholders when fewer were inserted), newest first, with no duplicates and no gaps; hence GetBucketCounts never has more than N entries.", "quantifier": "every N >= 0 and every number of insertions (every ring position)", "why_tests_cant": "Wrap-around positions are unbounded; the repo tests two hand-made rings.", "anchors": ["impl/bucket_queue.go: newBucketDequeue, addLast, getBucketList"]}
{"id": "C06", "title": "startTime is a pure filter on bucket queries", "statement": "GetBucketCountsSince(s) equals GetBucketCountsSince(s') restricted to keys >= s whenever s' <= s (with no other difference), GetBucketCounts() is GetBucketCountsSince(0), and queries never expose internal placeholders as long as s > -1000.", "quantifier": "every reachable counter state, every pair of start times, every query time", "why_tests_cant": "Quantifies over all states and all start times.", "anchors": ["impl/default_bucket_counter.go: GetBucketCounts, GetBucketCountsSince"]}
{"id": "C07", "title": "Bucket keys are aligned", "statement": "Every key returned by GetBucketCountsSince(s) (s > -1000) is a multiple of the interval in ms (interval truncated to whole seconds), is >= s, and is not later than the query time; and an update at time t >= 0 is aligned to the unique interval [k, k+interval) containing t.", "quantifier": "every reachable state, every time and interval >= 1s", "why_tests_cant": "All timestamps and all intervals.", "anchors": ["impl/default_bucket_counter.go: alignTimestamp, GetBucketCountsSince"]}
{"id": "C08", "title": "Sub-second intervals panic", "statement": "With a bucket interval strictly between -1s and 1s every UpdateN and every bucket query panics (integer division by zero), and UpdateN has by then already changed GetCount(); with an interval of at least one second neither ever panics.", "quantifier": "every interval, every state, every argument", "why_tests_cant": "Tests only use whole-second intervals.", "anchors": ["impl/default_bucket_counter.go: alignTimestamp, UpdateN"]}
{"id": "C09", "title": "What LastUpdateTime reports", "statement": "For every history LastUpdateTime() of a BucketCounter is its creation time in milliseconds as long as no update fell into an interval starting after time 0, and from then on the start of the newest updated interval in SECONDS. (So it is not, as documented, a time in milliseconds, and it goes down at the first update.)", "quantifier": "every history", "why_tests_cant": "Needs a comparison of two units over all histories; the test only asserts > 0.", "anchors": ["metric.go: Metric.LastUpdateTime", "impl/default_bucket_counter.go: LastUpdateTime", "impl/default_fast_compass.go: LastUpdateTime"]}
{"id": "C10", "title": "Concurrent updates: nothing is lost from the total", "statement": "In every interleaving of any number of concurrent UpdateN calls, once all calls returned GetCount() is the int64 sum of all arguments, and the counts of all buckets ever created sum to the same value: each update is added to exactly one bucket.", "quantifier": "every number of concurrent calls, every interleaving at atomic-step granularity, every clock behaviour", "why_tests_cant": "Schedules are unbounded; a race detector run samples a few.", "anchors": ["impl/default_bucket_counter.go: UpdateN (CAS, AddInt64)", "impl/bucket_queue.go: addLast"]}
{"id": "C11", "title": "Concurrent updates: one bucket per interval, latest bucket only moves forward", "statement": "In every interleaving, the timestamp of the latest bucket never decreases and no two buckets are ever created for the same interval.", "quantifier": "every interleaving of any number of UpdateN calls with arbitrary clock readings", "why_tests_cant": "Schedules are unbounded.", "anchors": ["impl/default_bucket_counter.go: UpdateN (CompareAndSwapPointer)"]}
{"id": "C12", "title": "Concurrent updates: a bucket is lost only by a race over its insertion", "statement": "Once all concurrent UpdateN calls returned, an interval that is among the N newest credited ones and in the queried range is reported by GetBucketCountsSince with exactly the amount credited to it, unless another goroutine was inserting a bucket into the ring at the same moment as the one that inserted this bucket. If insertions never overlap, the report is exactly the N newest intervals. (The plain claim 'always reported' is false: addLast is unsynchronised, and two goroutines that created successive buckets can overwrite each other's slot; a concrete schedule is given.)", "quantifier": "every interleaving", "why_tests_cant": "The losing schedule needs two goroutines stalled between the CAS and the ring write; tests never hit it.", "anchors": ["impl/default_bucket_counter.go: UpdateN", "impl/bucket_queue.go: addLast"]}
{"id": "C13", "title": "Concurrent updates: an update is credited to an earlier interval than its own only by a race", "statement": "In every interleaving a returned update is credited, with its full amount, to the interval of its own clock reading or to a later one, unless, after its clock reading and before it returned, another call with an earlier reading created the bucket it was credited to. It is always credited to an interval some call read (or, for negative readings only, to the initial placeholder). (The plain claim 'never earlier' is false: the goroutine that loses the CAS adds to whatever bucket won; a concrete schedule is given.)", "quantifier": "every interleaving", "why_tests_cant": "Needs a precise CAS-failure schedule.", "anchors": ["impl/default_bucket_counter.go: UpdateN (else branch)"]}
{"id": "C14", "title": "FastCompass counts and response times are exact below the packing limits", "statement": "For every category and interval reported, GetMethodCountPerCategory gives the number of Record calls and GetMethodRtPerCategory the sum of their durations truncated to ms, provided the summed ms stay below 2^38 and the number of calls below 2^26; GetCountAndRtPerCategory gives count*2^38+rt as an int64.", "quantifier": "every history of Record calls, categories, durations and clock readings", "why_tests_cant": "Packing bounds are only reachable with 2^38 ms of recorded time.", "anchors": ["impl/default_fast_compass.go: Record, GetMethodCountPerCategorySince, GetMethodRtPerCategorySince, GetCountAndRtPerCategorySince"]}
{"id": "C15", "title": "FastCompass overflow is exactly a carry", "statement": "Without any bound, the reported response time is the true sum modulo 2^38 and the reported count is (true count + true sum div 2^38) modulo 2^26; the combined value is negative exactly when that count is at least 2^25.", "quantifier": "every history, no bound on durations or counts", "why_tests_cant": "Needs astronomically large histories.", "anchors": ["impl/default_fast_compass.go: countOffset, countBase, rtBitwiseAndBase"]}
{"id": "C16", "title": "FastCompass category limit", "statement": "A FastCompass never reports more categories than its limit; categories admitted first stay and keep counting; Record on a new category beyond the limit, with a negative duration, or with an empty name changes nothing observable.", "quantifier": "every history of Record calls and every limit", "why_tests_cant": "All orders of arrival of categories.", "anchors": ["impl/default_fast_compass.go: Record"]}
{"id": "C17", "title": "FastCompass categories are isolated", "statement": "A Record on one category never changes what any getter reports for another category.", "quantifier": "every reachable state, every pair of distinct categories", "why_tests_cant": "All states.", "anchors": ["impl/default_fast_compass.go: Record, subCategories"]}
{"id": "C18", "title": "FastCompass: when a getter can collide with a Record", "statement": "A getter that iterates the category map overlaps an insertion (which crashes a Go program) only while a Record with a nonempty category that is not yet in the table runs and the table has room; at most max(limit,0) insertions of distinct categories ever happen; two Records never write the map at the same time; once the table is full, or all running and new Records are for known categories, no insertion ever happens again in any continuation. (The plain claim 'never overlaps' is false: getters do not take the mutex; a concrete schedule is given.)", "quantifier": "every interleaving of Record and getter calls", "why_tests_cant": "Crash needs an exact overlap.", "anchors": ["impl/default_fast_compass.go: Record, LastUpdateTime, Get*Since"]}
{"id": "C19", "title": "EWMA closed form", "statement": "Over exact arithmetic, after ticks with counts c0..cn the rate is c0/I*(1-a)^n + sum_{k=1..n} a*(1-a)^(n-k)*ck/I per nanosecond, and GetRate(u) is that times u in nanoseconds.", "quantifier": "every sequence of tick counts, every alpha and interval <> 0", "why_tests_cant": "Closed form over all sequences.", "anchors": ["ewma.go: EWMA.TickN, GetRate"]}
{"id": "C20", "title": "EWMA stays within the range of its inputs", "statement": "If every tick's instant rate lies in [lo, hi] and 0 <= alpha <= 1 then after the first tick the rate lies in [lo, hi] (exact arithmetic); in particular it is never negative for non-negative counts. Before the first tick it is 0.", "quantifier": "every tick sequence, every alpha in [0,1]", "why_tests_cant": "All sequences.", "anchors": ["ewma.go: EWMA.TickN"]}
{"id": "C21", "title": "EWMA decays towards zero when idle, in floating point", "statement": "With no new events each Tick leaves a non-negative rate non-negative and not larger, for every monotone symmetric rounding such as IEEE-754 binary64; over exact arithmetic k idle ticks multiply the rate by (1-alpha)^k.", "quantifier": "every state with rate >= 0, every alpha in [0,1], every number of idle ticks, every lawful rounding", "why_tests_cant": "Rounding behaviour over all floats.", "anchors": ["ewma.go: EWMA.Tick, TickN"]}
{"id": "C22", "title": "EWMA Tick consumes every Update exactly once", "statement": "In every interleaving of concurrent Update and Tick calls, the sum of the counts consumed by ticks plus what is still pending equals the int64 sum of all updates applied; nothing is dropped or counted twice. All this holds whatever the plain load of the pending count in Tick returns.", "quantifier": "every interleaving of any number of Update/Tick calls", "why_tests_cant": "Schedules of the CAS loop.", "anchors": ["ewma.go: EWMA.Update, Tick"]}
{"id": "C23", "title": "Compass counts", "statement": "GetCount() is the number of Update and UpdateWithError calls started, regardless of clock, reservoir kind, error codes, and even of calls that panic. GetSuccessCount() is the number of UpdateWithError calls with isSuccess if the interval is at least a second and the reservoir does not panic; otherwise it is at most that. So success <= count (below 2^63 calls).", "quantifier": "every history of calls with arbitrary clock readings, every interval other than 0 (exact successes: at least a second)", "why_tests_cant": "All histories including panicking calls.", "anchors": ["impl/default_compass.go: Update, UpdateWithError, GetCount, GetSuccessCount"]}
{"id": "C24", "title": "Compass error-code and addon counters are exact and bounded", "statement": "GetErrorCodeCounts() / GetAddonCounts() never hold more keys than the configured maximum, and the counter of each admitted key has a total equal to the number of calls that carried that key and reached that step.", "quantifier": "every history, every limit", "why_tests_cant": "All arrival orders of keys.", "anchors": ["impl/default_compass.go: findOrNewCounter, UpdateWithError"]}
{"id": "C25", "title": "When UpdateWithError panics", "statement": "UpdateWithError panics exactly when its reservoir or its interval would make Update panic, or when it names a new error code or a new addon after the respective maximum has been reached; the addon of a call that panics on its error code is not counted. (So it is not true that it never panics.)", "quantifier": "every history, every limit", "why_tests_cant": "Needs limit+1 distinct codes.", "anchors": ["impl/default_compass.go: findOrNewCounter, UpdateWithError"]}
{"id": "C26", "title": "Compass moving-average rates: zero, then never finite", "statement": "In every history, with any clock and any reservoir, GetOneMinuteRate/GetFiveMinuteRate/GetFifteenMinuteRate are 0 as long as no tick is due (no call saw the clock more than 5s after creation). After that they are never finite: +Inf when there was exactly one tick and something was recorded before it, NaN otherwise. (So they are never usable as rates.)", "quantifier": "every history of updates, reads and clock readings", "why_tests_cant": "Needs every history; the repo test only reads the rates before any tick.", "anchors": ["impl/default_compass.go: NewCompassWithType (m1Rate..m15Rate not initialised), tickIfNecessary", "ewma.go: TickN"]}
{"id": "C27", "title": "Compass mean rate", "statement": "In every history GetMeanRate() is 0 when nothing was recorded or the tick is not later than the recorded start, and otherwise count / (tick - start) * 10^9 in float64, where tick is in ns and start is the creation time in MILLISECONDS; if the clock read 0 ms at creation, it is over exact arithmetic the number of events divided by the seconds elapsed, and otherwise it need not be.", "quantifier": "every history and every pair of clock readings", "why_tests_cant": "Depends on relation between two clock units over all readings.", "anchors": ["impl/default_compass.go: GetMeanRate, NewCompassWithType (startTime: now)"]}
{"id": "C28", "title": "Compass default clock delays rates", "statement": "With a clock whose tick counts ns since process start and whose time is Unix ms (the default clock), as long as the tick reading is below the Unix-ms creation time (about 28 minutes), GetMeanRate() returns 0 and no moving-average tick happens, whatever was recorded.", "quantifier": "every history in which all tick readings are at most the creation time in ms", "why_tests_cant": "Needs a 28-minute run per sample.", "anchors": ["impl/default_compass.go: tickIfNecessary, GetMeanRate", "clock.go: UserTimeClock"]}
{"id": "C29", "title": "Compass tick schedule", "statement": "With a bucket interval of 5s and a non-decreasing clock, in every history the moving averages have ticked exactly (lastTick-creation)/5s times and lastTick is within 5s of the newest reading; with an interval that divides 5s they never tick more often than once per elapsed 5s. (With 1s they can tick too seldom and with 60s too often, because the remainder is taken modulo the bucket interval.)", "quantifier": "every history of tick readings", "why_tests_cant": "All reading sequences.", "anchors": ["impl/default_compass.go: tickIfNecessary"]}
{"id": "C30", "title": "Compass events reach the moving averages exactly once", "statement": "In every interleaving of concurrent Update calls and rate reads, events handed to each moving average plus the pending ones equal the number of Update increments performed; if the bucket interval divides 5s and clock readings are non-negative, each value of the tick clock is replaced by at most one goroutine. (With a 60s interval it can be replaced twice.) In a sequential history, every event is fed to the averages exactly once, by the first tick after it; later ticks feed zero.", "quantifier": "every interleaving", "why_tests_cant": "Schedules.", "anchors": ["impl/default_compass.go: tickIfNecessary (CAS on lastTick, uncounted)"]}
{"id": "C31", "title": "Compass instant counts follow the bucket counter", "statement": "With clock readings that do not go back, GetInstantCountSince(s) reports, per interval, the number of Update calls in that interval among the newest N active intervals, and agrees with GetCount() in total when nothing has been evicted. For arbitrary clock readings it reports what a bucket counter reports that is updated once per Update or UpdateWithError at the same readings, whatever the reservoir does.", "quantifier": "every history with arbitrary clock readings", "why_tests_cant": "All histories.", "anchors": ["impl/default_compass.go: GetInstantCount, GetInstantCountSince, Update"]}
{"id": "C32", "title": "A metric name always resolves to the same metric", "statement": "Once GetCompass/GetFastCompass returned a metric for a hash key, every later lookup of that key in that registry returns the same object, in every interleaving of concurrent lookups.", "quantifier": "every interleaving of lookups of any names", "why_tests_cant": "Schedules of Load/LoadOrStore.", "anchors": ["impl/default_registry.go: getMetric"]}
{"id": "C33", "title": "Distinct keys get distinct metrics", "statement": "Two lookups with different hash keys never return the same metric object unless it is the shared no-op.", "quantifier": "every history of lookups", "why_tests_cant": "All histories.", "anchors": ["impl/default_registry.go: getMetric"]}
{"id": "C34", "title": "Registry limit", "statement": "Without concurrency the number of real (non-no-op) metrics in a registry never exceeds its limit; below the limit every new name gets a real metric, at the limit a no-op; existing metrics are unaffected.", "quantifier": "every history of lookups (fewer than 2^31 distinct keys)", "why_tests_cant": "All histories.", "anchors": ["impl/default_registry.go: getMetric (metricsCount)"]}
{"id": "C35", "title": "Registry limit under concurrency", "statement": "If never more than P lookups are in progress together, a registry holds at most limit + P - 1 real metrics, in every interleaving; the bound is reached. (So the limit itself does not hold for concurrent lookups.)", "quantifier": "every interleaving", "why_tests_cant": "Schedules.", "anchors": ["impl/default_registry.go: getMetric"]}
{"id": "C36", "title": "Registry size", "statement": "GetMetrics() has exactly one entry per distinct key ever requested from that registry or its group, no-op entries included, sequentially and, once the lookups are over, in every interleaving. (So its size is not bounded by the limit.)", "quantifier": "every history", "why_tests_cant": "All histories.", "anchors": ["impl/default_registry.go: getMetric, GetMetrics"]}
{"id": "C37", "title": "When lookups panic", "statement": "GetCompass and GetFastCompass panic exactly when the key is stored with the other kind; never if each key is used with one kind, sequentially and in every interleaving.", "quantifier": "every history", "why_tests_cant": "All pairs of kinds and colliding names.", "anchors": ["impl/default_registry.go: GetCompass, GetFastCompass (.(metrics.Compass))"]}
{"id": "C38", "title": "Compasses and fast compasses partition the registry", "statement": "GetCompasses() and GetFastCompasses() are disjoint and together are GetMetrics(); the registry LastUpdateTime() is the maximum over its entries (0 if none).", "quantifier": "every reachable registry", "why_tests_cant": "All histories.", "anchors": ["impl/default_registry.go: GetCompasses, GetFastCompasses, GetMetrics, LastUpdateTime"]}
{"id": "C39", "title": "HashKey is computed once", "statement": "All HashKey() calls on one MetricName return the same string in every interleaving, even if Key or Tags are changed after the first call.", "quantifier": "every interleaving of HashKey calls and field writes", "why_tests_cant": "Schedules and map-iteration orders.", "anchors": ["metric_name.go: HashKey"]}
{"id": "C40", "title": "Equal names and hash keys", "statement": "Two MetricNames with equal Key and Tags have equal HashKey() whatever the map iteration order if they have at most one tag; in general all iteration orders give the same HashKey() exactly when the printed pieces of any two tags commute. (So for two or more tags equal names may have different hash keys.)", "quantifier": "every pair of names and every map iteration order", "why_tests_cant": "Depends on the runtime's random iteration order.", "anchors": ["metric_name.go: HashKey"]}
{"id": "C41", "title": "Different names and hash keys", "statement": "Two MetricNames with different Key or Tags, at most one tag each, no '-' in the key and no ':' in the tag key, have different HashKey(). (In general not: separators are not escaped and tags not delimited.)", "quantifier": "every pair of names", "why_tests_cant": "All pairs of strings.", "anchors": ["metric_name.go: HashKey"]}
{"id": "C42", "title": "Manager: one registry per group, groups are isolated", "statement": "In every interleaving of lookups, all lookups in one group use the same registry, and lookups in different groups never return the same real metric.", "quantifier": "every interleaving and every set of groups", "why_tests_cant": "Schedules.", "anchors": ["impl/default_metric_manager.go: getMetricRegistry, GetCompass, GetFastCompass"]}
{"id": "C43", "title": "Manager switch", "statement": "While disabled the manager returns only no-op metrics and changes no registry; after re-enabling, a name resolves to the very metric it resolved to before.", "quantifier": "every history of SetEnable and lookups", "why_tests_cant": "All histories.", "anchors": ["impl/default_metric_manager.go: SetEnable, IsEnable, GetCompass, GetFastCompass"]}
{"id": "C44", "title": "No-op metrics ignore everything", "statement": "Every getter of the no-op compass, fast compass, bucket counter and snapshot returns the same constant after any sequence of updates, and never an error.", "quantifier": "every sequence of operations", "why_tests_cant": "All histories.", "anchors": ["impl/nop_compass.go", "impl/nop_fast_compass.go", "impl/nop_bucket_counter.go", "impl/nop_snapshot.go", "impl/nop_metric_manager.go"]}
{"id": "C45", "title": "Configuration getters", "statement": "Every count and interval getter returns the configured value if it is valid and a positive default otherwise, so limits and intervals are always usable (interval >= 1s). (Exceptions proved: GetLevelInterval ignores the configured map, GetGlobalInterval rejects exactly 1s, and the default reservoir type is not the documented one.)", "quantifier": "every configuration", "why_tests_cant": "All configurations.", "anchors": ["config/metric_config.go"]}
{"id": "C46", "title": "Interval constants", "statement": "Of the interval constants Sec_1, Sec_5, Sec_10, Sec_30, Sec_60 exactly Sec_1 and Sec_5 are the number of seconds their name says; the other three are 5 seconds.", "quantifier": "the five constants", "why_tests_cant": "Finite, but no test looks at them.", "anchors": ["interval.go"]}
{"id": "C47", "title": "Metrics created by the registry are well-formed", "statement": "Every compass or fast compass a registry creates has an interval of at least one second and at least one bucket, so bucket operations on it never panic; its reservoir and bucket count are the configured ones. (Its error-code limit is not the configured error-code limit: the addon limit is passed twice.)", "quantifier": "every metric level and configuration", "why_tests_cant": "All levels, including undefined ones.", "anchors": ["impl/default_registry.go: GetCompass, GetFastCompass", "config/metric_config.go"]}
{"id": "C48", "title": "Uniform reservoir size", "statement": "Size() is min(number of updates, capacity), for every sequence of random draws.", "quantifier": "every history of updates and every random sequence", "why_tests_cant": "All random sequences.", "anchors": ["impl/uniform_reservoir.go: Size, UpdateN"]}
{"id": "C49", "title": "Uniform reservoir holds recorded values only", "statement": "The first Size() slots hold values that were recorded, at distinct positions of the stream (no value is duplicated), and the first capacity values are all kept until displaced.", "quantifier": "every history and random sequence", "why_tests_cant": "All random sequences.", "anchors": ["impl/uniform_reservoir.go: UpdateN"]}
{"id": "C50", "title": "Uniform snapshot reflects the reservoir", "statement": "A snapshot of a full uniform reservoir contains exactly the recorded sample (Size() values from different positions of the stream); before that it contains the recorded values plus one zero for every unused slot, so it has capacity many values instead of Size().", "quantifier": "every history", "why_tests_cant": "The repo test only snapshots a full reservoir.", "anchors": ["impl/uniform_reservoir.go: GetSnapshot"]}
{"id": "C51", "title": "Random position is uniform and in range", "statement": "The random position drawn for the n-th value is in [0,n), and each position is produced by exactly the same number of accepted 63-bit random words (rejection removes the modulo bias); at least half of the words are accepted, so the loop is always able to stop.", "quantifier": "every n in [1, 2^63)", "why_tests_cant": "2^63 words for each n.", "anchors": ["impl/uniform_reservoir.go: nextRandomPos"]}
{"id": "C52", "title": "Reservoir sampling is fair", "statement": "Counting over all sequences of positions, after k >= capacity updates every one of the k stream elements is in the reservoir in exactly capacity/k of the sequences. Every set of capacity elements is the sample equally often. The same holds for the words of the random source instead of positions, rejected words included: of the word tables (up to w words for each update) with which all updates return, each set of capacity elements is the sample for the same number, and at most the fraction (k - capacity) / 2^w of all tables leave an update without an accepted word.", "quantifier": "every stream length, capacity and element index; every number of words available to an update", "why_tests_cant": "A statistical property over all random sequences.", "anchors": ["impl/uniform_reservoir.go: UpdateN"]}
{"id": "C53", "title": "Snapshots are immutable", "statement": "A snapshot taken from a uniform reservoir does not change when the reservoir is updated afterwards, and mutating the slice returned by GetValues() changes neither the snapshot nor the reservoir.", "quantifier": "every later history", "why_tests_cant": "Aliasing must be excluded for all histories.", "anchors": ["impl/uniform_snapshot.go: NewUniformSnapshot, GetValues"]}
{"id": "C54", "title": "Uniform snapshot quantiles: domain, range, endpoints", "statement": "GetValue(q) fails exactly when q is NaN or outside [0,1] and never panics; otherwise it lies between GetMin() and GetMax(): in float64 if the values are below 2^52 in absolute value, in exact arithmetic if they differ by less than 2^63; GetValue(0)=min, GetValue(1)=max (0 when empty). (Both provisos are needed: the subtraction can wrap, and rounding alone can put a quantile above the maximum.)", "quantifier": "every slice of values and every quantile", "why_tests_cant": "All slices and quantiles.", "anchors": ["impl/uniform_snapshot.go: GetValue, GetMin, GetMax"]}
{"id": "C55", "title": "Uniform snapshot quantiles are monotone", "statement": "0 <= q <= q' <= 1 implies GetValue(q) <= GetValue(q') (in exact arithmetic unless a difference of values wraps, and in float64 for values below 2^52).", "quantifier": "every slice and every pair of quantiles", "why_tests_cant": "All pairs.", "anchors": ["impl/uniform_snapshot.go: GetValue"]}
{"id": "C56", "title": "Uniform snapshot statistics", "statement": "GetValues() is the sorted permutation of the input; GetMin/GetMax are its extremes; GetMean() lies between them if the int64 sum does not overflow in exact arithmetic, and if values and sum are below 2^53 in float64 (false if the sum overflows); variance is non-negative in float64 under the same bounds, and over exact arithmetic it is the sample variance, zero iff all values are equal.", "quantifier": "every slice of values", "why_tests_cant": "All slices.", "anchors": ["impl/uniform_snapshot.go"]}
{"id": "C57", "title": "Weighted snapshot construction", "statement": "Values are a sorted permutation of the samples' values; quantiles start at 0 and are non-decreasing, for every lawful rounding; over exact arithmetic the normalised weights are the shares of the weights and sum to 1, and quantile k is the share of the samples before k, below 1; whichever order the unstable sort leaves ties in.", "quantifier": "every sample list with positive weights, every tie order", "why_tests_cant": "All lists, all tie orders.", "anchors": ["impl/weighted_snapshot.go: NewWeightedSnapshot"]}
{"id": "C58", "title": "Weighted snapshot quantiles: domain and range", "statement": "GetValue(q) fails exactly when q is NaN or outside [0,1], never panics, and otherwise returns one of the sampled values (0 when empty), GetValue(0) being the minimum.", "quantifier": "every sample list, every quantile", "why_tests_cant": "All lists and quantiles.", "anchors": ["impl/weighted_snapshot.go: GetValue, searchQuantile"]}
{"id": "C59", "title": "Weighted snapshot quantiles are monotone", "statement": "q <= q' implies GetValue(q) <= GetValue(q'), in spite of the non-monotone predicate passed to the binary search.", "quantifier": "every sample list with non-negative weights, every pair of quantiles, every lawful rounding", "why_tests_cant": "All pairs.", "anchors": ["impl/weighted_snapshot.go: searchQuantile"]}
{"id": "C60", "title": "Weighted quantile definition", "statement": "Over exact arithmetic GetValue(q) is the value at the last position whose cumulative weight is <= q, for every q in [0,1] that differs from all cumulative weights. (If q equals one, the previous value may be returned: exactly which of the two is characterised.)", "quantifier": "every sample list, every quantile", "why_tests_cant": "Needs exact boundary quantiles.", "anchors": ["impl/weighted_snapshot.go: searchQuantile (sort.Search with ==)"]}
{"id": "C61", "title": "Weighted mean and deviation", "statement": "GetMean() is the weight-weighted average, lies between GetMin() and GetMax(), variance is >= 0 (exact arithmetic); GetMin/GetMax/GetMean fail exactly on an empty snapshot, GetStdDev never fails.", "quantifier": "every sample list with positive weights", "why_tests_cant": "All lists.", "anchors": ["impl/weighted_snapshot.go: GetMean, GetStdDev, GetMin, GetMax"]}
{"id": "C62", "title": "Weights matter only up to scale", "statement": "Multiplying all weights by the same positive factor changes nothing a weighted snapshot reports (exact arithmetic): the choice of landmark is unobservable.", "quantifier": "every sample list and positive factor", "why_tests_cant": "All lists and factors.", "anchors": ["impl/weighted_snapshot.go: NewWeightedSnapshot", "impl/exponentially_decaying_reservoir.go: rescale"]}
{"id": "C63", "title": "Decaying reservoir size", "statement": "The reservoir and every snapshot never hold more than capacity samples (fewer than 2^63 calls, no clock step so far back that the scaling factor overflows), in every interleaving; for calls that do not overlap Size() is min(count, capacity), never smaller than the number of samples held, and both are min(updates, capacity) while priorities never collide. (A Size() that overlaps updates reads the count twice and may return more than the capacity.)", "quantifier": "every history of updates, clock readings and random draws", "why_tests_cant": "All histories.", "anchors": ["impl/exponentially_decaying_reservoir.go: UpdateN, Size"]}
{"id": "C64", "title": "Decaying reservoir keeps the highest priorities", "statement": "With distinct priorities, the samples held are exactly the capacity-many updates with the largest priority weight/random. In floating point too, and with equal priorities: an update that brings a priority already held takes that sample's place (nothing changes if the reservoir is full and that priority is its lowest); otherwise it is added and, if the reservoir is full, the sample with the lowest priority leaves, or nothing changes if all held priorities are higher. No two samples ever have the same priority.", "quantifier": "every sequence of priorities", "why_tests_cant": "All sequences.", "anchors": ["impl/exponentially_decaying_reservoir.go: UpdateN"]}
{"id": "C65", "title": "Decaying reservoir reports only recorded values", "statement": "Every value in a snapshot was passed to UpdateN since the last complete reset.", "quantifier": "every history including rescales", "why_tests_cant": "All histories.", "anchors": ["impl/exponentially_decaying_reservoir.go: UpdateN, rescale, GetSnapshot"]}
{"id": "C66", "title": "Rescaling is unobservable", "statement": "Over exact arithmetic and with a clock that did not go backwards, a rescale keeps the number of samples, their values and order, and multiplies all weights by one factor, so every statistic of the snapshot is unchanged. (With a backwards clock samples can be lost.)", "quantifier": "every reservoir state and landmark shift", "why_tests_cant": "All states.", "anchors": ["impl/exponentially_decaying_reservoir.go: rescale"]}
{"id": "C67", "title": "Decaying reservoir never panics", "statement": "With capacity at least 1 UpdateN never indexes an empty sample list; with capacity 0 every UpdateN panics.", "quantifier": "every history", "why_tests_cant": "All histories incl. resets by underflow.", "anchors": ["impl/exponentially_decaying_reservoir.go: UpdateN (samples[0])"]}
{"id": "C68", "title": "One rescale per period", "statement": "Calls that do not overlap rescale at most once per hour of ticks. In every interleaving each call rescales at most once, and only if its tick reached a deadline set one hour of ticks after the creation or after an earlier rescale. (Overlapping calls that see the same expired deadline can both rescale, at the same tick.)", "quantifier": "every interleaving", "why_tests_cant": "Schedules.", "anchors": ["impl/exponentially_decaying_reservoir.go: rescaleIfNeeded, rescale"]}
{"id": "C69", "title": "Concurrent updates of the decaying reservoir: exactly what a race with a rescale does to a weight", "statement": "In every interleaving, rescales included (clock not going backwards, positive draws, exact arithmetic, distinct priorities), the reservoir holds exactly the top `size` updates by priority with weights relative to the landmark in force, when each update is taken to have been made later by as many seconds as the landmark was moved between the computation of its weight and its insertion; that slip is zero unless a rescale fell exactly in between. (The plain claim 'every stored weight is relative to the landmark in force' is false: the weight is computed before the lock is taken; a concrete schedule is given.)", "quantifier": "every interleaving", "why_tests_cant": "Needs a rescale exactly between two statements.", "anchors": ["impl/exponentially_decaying_reservoir.go: UpdateN"]}
{"id": "C70", "title": "Bucket reservoir mean", "statement": "The set of snapshots a bucket reservoir may return is exactly the pairs of a value and a count, each from the current or the previous interval - possibly of two different intervals; the mean is the sum of the values of one interval divided by the number of its events when only one of the two intervals has events, the clock stands still within a call and the clock has run for a second. (Both provisos are needed, and in general value and count may come from different intervals.)", "quantifier": "every history and every map iteration order", "why_tests_cant": "Depends on runtime map order.", "anchors": ["impl/bucket_reservoir.go: GetSnapshot, fetchValueFromMap"]}
{"id": "C71", "title": "Bucket snapshot contract", "statement": "A bucket snapshot supports only Size and GetMean; every other getter returns NotAvailable with an error, for every state; GetMean is 0 for count 0 and value/count otherwise; never panics.", "quantifier": "every count and value", "why_tests_cant": "All values.", "anchors": ["impl/bucket_snapshot.go"]}
{"id": "C72", "title": "Manual clock", "statement": "A ManualClock's GetTick is the sum of all Adds (any interleaving), GetTime is that in ms truncated towards zero; both are non-decreasing if no Add is negative.", "quantifier": "every history / interleaving of Adds", "why_tests_cant": "All histories.", "anchors": ["impl/manual_clock.go"]}
{"id": "C73", "title": "Delta comparison", "statement": "DeltaCompareFloat64(a,b,d) is true iff |a-b| <= d over exact arithmetic; with rounding it compares the rounded difference, so it never rejects a difference within a representable d (but may accept one slightly above); it is symmetric in a,b; it is false if any argument is NaN and for two equal infinities.", "quantifier": "every triple of floats", "why_tests_cant": "All floats.", "anchors": ["compare.go"]}
{"id": "C74", "title": "Bucket intervals survive the floating-point conversion", "statement": "int64(interval.Seconds()) - the number of seconds every bucket computation divides by - equals the whole number of seconds of the interval for every interval that is a whole number of seconds and for every interval in [0, 2^22 s), computed in IEEE-754 binary64. (False in general: 16777216.999999999 s gives one second more.)", "quantifier": "all intervals (int64 nanoseconds) in the stated ranges", "why_tests_cant": "the conversion rounds twice in binary64; which of the 4*10^15 intervals round up cannot be enumerated", "anchors": ["impl/default_bucket_counter.go: UpdateN, GetBucketCountsSince", "time.Duration.Seconds (Go standard library)"]}
{"id": "C75", "title": "Statistics of a decaying reservoir are time-weighted averages", "statement": "Over exact arithmetic with a clock that does not go back and distinct priorities, the snapshot of a decaying reservoir holds exactly the kept updates (the capacity-many with the highest priority), and its mean and variance are the averages in which an update counts exp(alpha) times as much as one a second older; landmark, rescales and the order ties are sorted in are unobservable.", "quantifier": "all capacities >= 1, all histories of UpdateN and GetSnapshot, all clock readings that do not go back, all positive draws", "why_tests_cant": "the claim ranges over all histories, rescale points and random draws", "anchors": ["impl/exponentially_decaying_reservoir.go: UpdateN, rescale, GetSnapshot", "impl/weighted_snapshot.go: NewWeightedSnapshot, GetMean, GetStdDev"]}
{"id": "C76", "title": "A reservoir does not influence the rest of its compass", "statement": "Two compasses with the same parameters but different (non-panicking) reservoirs that get the same calls agree in every getter except GetSnapshot and in which calls panic; the reservoir receives every recorded duration exactly once, in order, also those of calls that panic later because of their error code or addon.", "quantifier": "all histories, all reservoirs, all clock readings, intervals of at least 1 s", "why_tests_cant": "quantifies over all reservoir implementations and histories", "anchors": ["impl/default_compass.go: Update, UpdateWithError, GetSnapshot, NewCompassWithType"]}
{"id": "C77", "title": "NewCompassWithType: no panics, right reservoir, for every type", "statement": "For every reservoir type (also unknown numbers) and every history of calls and snapshots, Update, the rate getters and GetSnapshot never panic and UpdateWithError panics exactly for a new error code or addon without room; counts are exact; snapshots come from a bucket reservoir for type 0, a uniform one for type 1, a decaying one otherwise, and contain exactly what such a reservoir on its own (a decaying one of size 1028 with decay constant 0.015, a uniform one of size 1024, a bucket one with the compass's interval and number of buckets), given the same durations at the same times, would give.", "quantifier": "all histories incl. GetSnapshot, all types, all clock readings, all valid random inputs, fewer than 2^63 recordings", "why_tests_cant": "all histories and random inputs", "anchors": ["impl/default_compass.go: NewCompassWithType", "reservoir.go: ReservoirType"]}
{"id": "C78", "title": "Default clock", "statement": "For system times after program start, UserTimeClock.GetTime is the system time in whole ms and GetTick the exact ns since start; both are non-decreasing when the system time is, and agree to within a ms over any period. (Not monotonic when the system time is set back: refuted.)", "quantifier": "all system times in int64 nanoseconds", "why_tests_cant": "all times", "anchors": ["clock.go: UserTimeClock.GetTick, GetTime"]}
{"id": "C79", "title": "Uniform reservoir used by many goroutines", "statement": "For every schedule of any number of UpdateN, Size and GetSnapshot calls on one uniform reservoir, interleaved between single loads, stores and random words, the reservoir is in the state that the finished UpdateN calls, run one at a time in some order that respects real time, leave; every answer of Size or GetSnapshot is the answer of such a sequential history holding all updates finished before it started and none that started after it ended; Size is min(capacity, number of updates) and nothing panics for fewer than 2^63-1 updates and random words in range.", "quantifier": "all schedules, any number of goroutines, all values and random words", "why_tests_cant": "all schedules and random words", "anchors": ["impl/uniform_reservoir.go: UpdateN, Size, GetSnapshot, nextRandomPos"]}
{"id": "C80", "title": "FastCompass used by many goroutines", "statement": "For every schedule of any number of concurrent FastCompass.Record calls, interleaved between single loads, stores and clock readings, the compass is (whenever no call holds its mutex) in the state that the finished calls, run one at a time in an order that respects real time, leave; while all clock readings lie in one interval no record of a kept category is lost: its reported count and summed duration are exact below 2^26 records and 2^38 ms; at every moment it holds at most max(limit,0) categories; no call panics for intervals of at least 1 s.", "quantifier": "all schedules, any number of goroutines, all categories, durations and clock readings", "why_tests_cant": "all schedules", "anchors": ["impl/default_fast_compass.go: FastCompassImpl.Record, GetMethodCountPerCategorySince, GetMethodRtPerCategorySince"]}
{"id": "C81", "title": "A bucket query overlapping updates", "statement": "A GetBucketCountsSince(s) call that runs, load by load, concurrently with any number of UpdateN calls returns at most N entries, each with key 1000 x interval start, at or after s and not after its own clock reading, and with value the int64 sum of what had been credited to that interval at some moment during the call; if no update opens a new interval while it runs, its set of intervals is the one an instantaneous query at its start returns. (Without that proviso it may miss intervals: refuted by a concrete schedule.)", "quantifier": "all schedules of updates around one query, all N, intervals, amounts and clock readings, s > -1000", "why_tests_cant": "all schedules", "anchors": ["impl/default_bucket_counter.go: GetBucketCountsSince", "impl/bucket_queue.go: getBucketList, addLast"]}
{"id": "C82", "title": "A FastCompass query never sees half a record", "statement": "The count and the summed duration that a FastCompass category reports for an interval come from one atomic load: even when the query overlaps records, they are the exact count and duration sum of one and the same set of records (those credited to that interval at one moment during the query), as long as that set has fewer than 2^26 records and 2^38 ms.", "quantifier": "all schedules of records of non-negative duration around one query", "why_tests_cant": "all schedules", "anchors": ["impl/default_fast_compass.go: Record, GetMethodCountPerCategorySince, GetMethodRtPerCategorySince", "impl/default_bucket_counter.go: GetBucketCountsSince"]}
{"id": "C83", "title": "A compass used by many goroutines", "statement": "For every schedule of any number of concurrent Compass.UpdateWithError calls (Update is the case without success flag, error code and addon), interleaved between single loads, stores, lock operations and clock readings, with a bucket interval of at least 1 s: at every moment the total count, the success count and every error-code and addon count lie between the number of finished and the number of started calls that carry them, and are exact once all calls are over; a finished call panicked exactly when its error code has no counter, or its error code is fine and its addon has none, and only when that map is full; at every moment each map has at most max(limit,0) labels, labels are never dropped and each was passed by some call; no call panics if the different labels fit the limits; every counter's buckets behave as under concurrent BucketCounter updates; no call waits forever: each call takes at most 51 moves of its own and some unfinished call can always move.", "quantifier": "all schedules, any number of goroutines, all limits, labels and clock readings, all intervals of at least 1 s", "why_tests_cant": "all schedules", "anchors": ["impl/default_compass.go: DefaultCompass.Update, UpdateWithError, findOrNewCounter"]}
{"id": "C84", "title": "Everybody who looks a name up shares one metric", "statement": "In every run of a program that looks metrics up (on registries and through the manager, from any number of goroutines) and uses the metrics it got, the metric behind the result of a finished lookup is a new one (of the default configuration and the level of the lookup that created it) to which exactly the calls through results of lookups of the same key in the same registry or group were made, in order: for a compass GetCount() is the number of Update and UpdateWithError calls made through any of them, a fast compass holds exactly their Record calls. Losing objects of a creation race, other names, other groups, and results obtained while the manager was disabled never contribute.", "quantifier": "all interleavings of the steps of any number of lookups and SetEnable calls with any uses of returned metrics, all clocks, all reservoir inputs", "why_tests_cant": "The guarantee spans registry, manager and metric: a lost update would need a particular race between two creators and a later use.", "anchors": ["impl/default_registry.go:getMetric", "impl/default_metric_manager.go:getMetricRegistryByGroup", "impl/default_compass.go:Update", "impl/default_fast_compass.go:Record"]}
{"id": "C85", "title": "What LastUpdateTime of a compass and a fast compass reports", "statement": "LastUpdateTime of a compass is the latest interval start (in seconds) of its Update and UpdateWithError calls, including those that panicked, or its creation time (in milliseconds) as long as none is positive; reading rates does not count. LastUpdateTime of a fast compass is the largest over the categories in use of the same, each category being created during its first valid call, and 0 if there is none; ignored Record calls do not count.", "quantifier": "all histories of calls, all clock readings, all limits, all intervals of at least a second", "why_tests_cant": "The value depends on the whole history, on backward clock steps and on which categories were admitted.", "anchors": ["impl/default_compass.go:LastUpdateTime", "impl/default_fast_compass.go:LastUpdateTime", "impl/default_bucket_counter.go:LastUpdateTime"]}
{"id": "C86", "title": "A whole compass under concurrent use loses and invents nothing", "statement": "Any number of goroutines call Update, UpdateWithError, the rate getters and GetSnapshot of one compass. At every moment the total count, the success count, the count of every error code and addon, and what the averages were fed plus what is pending each count some of the matching calls: none that was not made, and all (addons: none twice) that are over. When all calls are over all of these are exact, each of the three averages is what ticking it with the same list of counts in some order gives, and every recorded duration has reached the reservoir exactly once: with the uniform reservoir its state and every snapshot are those of one sequential order of the recorded durations (a snapshot contains what was over before it began); a decaying reservoir keeps exactly the records of highest priority; a bucket reservoir has summed up the recorded durations (at every moment those of some calls, at least of all that are over). With a bucket interval of at least a second no call divides by zero, and no call panics in the reservoir (uniform: short of 2^63 calls).", "quantifier": "all schedules of any number of calls, interleaved at single loads, stores, compare-and-swaps and lock operations; all clock readings and random words; all limits and sizes", "why_tests_cant": "A lost or doubled event needs a particular interleaving across the tick clock, the averages, the counters, the label maps and the reservoir.", "anchors": ["impl/default_compass.go:Update", "impl/default_compass.go:UpdateWithError", "impl/default_compass.go:tickIfNecessary", "impl/default_compass.go:GetSnapshot", "impl/default_compass.go:GetOneMinuteRate"]}
{"id": "C87", "title": "Every call comes to its end", "statement": "BucketCounter.Update/UpdateN (at most 9 steps of its own), GetBucketCountsSince (at most 2N+6 for N buckets), metric lookups on registries and through the manager and SetEnable (at most 9), and the methods of the exponentially decaying reservoir (at most 8, counting a critical section as one) are wait-free: however the other goroutines run or stop, a call is over after that many steps of its own. Tick/TickN/Update of an average, MetricName.HashKey, the methods of the uniform reservoir, FastCompass.Record, and Update, UpdateWithError, the rate getters and GetSnapshot of a whole compass (with a uniform, decaying or bucket reservoir) are free of deadlock: whatever has happened, wherever the calls are, all calls under way can be brought to their end with no new call. The exception: Tick of an average, and Update and the rate getters of a compass, are not wait-free, since other Update calls can overtake their compare-and-swap any number of times.", "quantifier": "all schedules of any number of calls, all clock readings and random words, all sizes and limits", "why_tests_cant": "A deadlock or an endless loop needs a particular interleaving; a test only sees schedules that happened.", "anchors": ["impl/default_bucket_counter.go: UpdateN, GetBucketCountsSince", "impl/default_registry.go: getMetric", "impl/default_metric_manager.go", "ewma.go: Tick, TickN", "impl/default_compass.go: tickIfNecessary, UpdateWithError", "impl/uniform_reservoir.go", "impl/exponentially_decaying_reservoir.go", "impl/default_fast_compass.go: Record", "metric_name.go: HashKey"]}
{"id": "C88", "title": "What may be called from several goroutines without a data race, and which fields the other calls race on", "statement": "No schedule has a data race when any number of goroutines call the methods of one uniform reservoir; Record of one fast compass; HashKey of one metric name whose fields nobody assigns; Update and TickN of one moving average; Inc/IncN/Dec/DecN of one counter. Update/UpdateN of a bucket counter race, but only on the pointer to the latest bucket, the position of the queue and its slots, never on totals or counts; GetBucketCountsSince races with them only on the position, the slots and the counts of buckets. tickIfNecessary and the counting of a compass race only on the time of the last tick; UpdateWithError races only inside bucket counters (as above), never on a label map. The decaying reservoir races only on the next rescale time, the landmark and the number of samples, never on the samples, and on the number of samples only if Size is called. Lookups in registries and the manager race only on the metric count, with SetEnable also on enable, never on a map. The exceptions do occur: each of these fields is raced on in some schedule, and the getters that take no lock (GetRate, GetCount, LastUpdateTime, the getters of a fast compass, GetErrorCodeCounts and GetAddonCounts), Tick of an average beside Update, and an assignment to the fields of a metric name beside HashKey, race.", "quantifier": "all schedules of any number of calls, all clock readings and random words, all initial objects", "why_tests_cant": "The race detector only reports races of schedules that happen in the test run; absence of races has to hold for all of them.", "anchors": ["ewma.go", "metric_name.go: HashKey", "impl/default_bucket_counter.go", "impl/bucket_queue.go", "impl/default_compass.go", "impl/default_fast_compass.go: Record", "impl/uniform_reservoir.go", "impl/exponentially_decaying_reservoir.go", "impl/default_registry.go: getMetric", "impl/default_metric_manager.go", "impl/counter_impl.go"]}
{"id": "C89", "title": "A decaying reservoir favours newer measurements, whatever the random numbers", "statement": "Take any call history of an exponentially decaying reservoir and any finite set of random draws for it that is symmetric in the draws of two of its updates (for instance all draws without replacement from a set of numbers), without ties. If the second of the two updates was not made in an earlier second than the first, at least as many of the draws leave the second value in the reservoir as leave the first. Two updates of the same second have exactly the same chance.", "quantifier": "all histories, sizes, pairs of updates and symmetric finite sets of draws without ties; exact arithmetic, times that do not go back, values all different", "why_tests_cant": "A statistical test of the bias can only sample some histories and draws, and decides with some error probability; the claim is an exact comparison for all of them.", "anchors": ["impl/exponentially_decaying_reservoir.go: UpdateN, rescale, weight"]}
{"id": "C90", "title": "Enumerations that overlap registrations", "statement": "GetMetrics, GetCompasses and GetFastCompasses of a registry called while other goroutines look metrics up and so register new ones: when the enumeration returns, its result has every matching entry that was registered when it began (in particular the metric of every lookup that had returned), has no entry that does not match or is not in the registry, and has each key once with the metric that all lookups of it return. The exception: whether an entry registered during the enumeration is in the result is not determined.", "quantifier": "all interleavings of an enumeration with any number of lookups on any number of registries and through the manager, all visiting orders of sync.Map.Range its contract allows", "why_tests_cant": "What overlaps with the enumeration, and in which order the map is visited, is up to the scheduler and the runtime.", "anchors": ["impl/default_registry.go: GetMetrics, GetCompasses, GetFastCompasses, getMetrics"]}
{"id": "C91", "title": "A call that nobody interrupts", "statement": "A call (UpdateN of a bucket counter and a query of its buckets; Update and Tick of a moving average; UpdateN, GetSnapshot and Size of a decaying reservoir; Update, UpdateWithError, the rate getters and the snapshot of a compass; a lookup on a registry or through the manager) that runs from its beginning to its end while no other goroutine takes a step leaves the metric, returns, and panics exactly as its sequential description says, at clock readings and random draws made during the call - also if other goroutines stand still in the middle of their calls on the same metric. A history of calls that do not overlap therefore does what the sequential description says.", "quantifier": "all states of the shared memory (other calls may be suspended anywhere), all arguments, all clock readings and draws during the call, all histories of non-overlapping calls", "why_tests_cant": "The states in which other calls are suspended are produced by the scheduler, and there are unboundedly many of them.", "anchors": ["impl/default_bucket_counter.go: UpdateN, GetBucketCountsSince", "ewma.go: Update, Tick, TickN", "impl/exponentially_decaying_reservoir.go: UpdateN, GetSnapshot, Size", "impl/default_compass.go: Update, UpdateWithError, tickIfNecessary, Get*MinuteRate, GetSnapshot", "impl/default_registry.go: GetCompass, GetFastCompass, getMetric", "impl/bucket_reservoir.go: UpdateN, GetSnapshot"]}
{"id": "C92", "title": "The standard moving averages stay accurate for ever", "statement": "The one-, five- and fifteen-minute moving averages, as their constructors make them and run in binary64 arithmetic with a math.Exp that is accurate to one unit in the last place: after a history of Update, Tick and TickN calls of any length in which no tick counts more than M < 2^53 events, GetRate differs from the ideal real-number moving average with a time constant of N minutes and ticks 5 seconds apart by at most N*2^-46 of the largest rate (M per 5 s). In particular rounding errors do not accumulate, a steady load is reported as it is, and k idle ticks multiply the rate by exp(-5k/(60N)). For any smoothing constant between 2^-40 and 1/4 the error against exact arithmetic is at most (4/alpha)*2^-53 of the largest rate.", "quantifier": "all histories of calls, all counts below 2^53, all rate units, all math.Exp implementations with relative error at most 2^-52", "why_tests_cant": "Accumulation of rounding errors shows only after very long histories, and the worst case history is unknown; the bound must hold for every one.", "anchors": ["impl/ewma.go: NewOneMinuteEWMA, NewFiveMinutesEWMA, NewFifteenMinutesEWMA, Update, Tick, TickN, GetRate"]}
{"id": "C93", "title": "Means, deviations and rates are numerically accurate", "statement": "In binary64 arithmetic, with integer sums that do not overflow: GetMean of a uniform and of a bucket snapshot differs from the mathematical mean by at most 2^-51 of it, and GetMeanRate from count divided by elapsed time by at most 2^-50 of it; GetStdDev of a uniform snapshot differs from the sample standard deviation by at most sqrt(n+8)*2^-24 of the largest magnitude M (the variance under the root by (n+8)*2^-49*M^2), and GetMean/GetStdDev of a weighted snapshot differ from the weighted mean by at most n*2^-50*M and from the weighted standard deviation by at most sqrt(8n)*2^-24*M. The float64 arithmetic in which this holds is that of IEEE-754: rounding keeps exactly the numbers m*2^e with |m| < 2^53 and -1074 <= e <= 971, is to nearest with ties to even, and overflows from 2^1024 - 2^970 on; and its square root, the nearest float64, meets what is asked of sqrt.", "quantifier": "all lists of values and weights of any length up to 2^40, all magnitudes up to 2^63, weights with a total between 2^-990 and 2^990, all sqrt implementations within 2^-52", "why_tests_cant": "cancellation and accumulated rounding depend on the particular values; the bound has to hold for every list, not for sampled ones", "anchors": ["impl/uniform_snapshot.go: GetMean, GetStdDev", "impl/weighted_snapshot.go: GetMean, GetStdDev, NewWeightedSnapshot", "impl/bucket_snapshot.go: GetMean", "impl/default_compass.go: GetMeanRate"]}
{"id": "C94", "title": "Percentiles are numerically accurate", "statement": "In binary64 arithmetic, for every fraction c between 0 and 1: GetValue(c) of a uniform snapshot of n values differs from the linear interpolation at position c*(n+1) of the sorted values by at most (n+4)*2^-51 of the largest magnitude; GetValue(c) of a weighted snapshot is a sampled value such that the samples sorted before it carry at most the fraction c, and those up to and including it at least the fraction c, of the total weight, up to n*2^-50. GetMedian, Get75th, 95th, 98th, 99th and 999thPercentile are these for 0.5, 0.75, 0.95, 0.98, 0.99 and 0.999.", "quantifier": "all lists of samples, all fractions, all magnitudes up to 2^63 with differences below 2^63, weights with a total between 2^-990 and 2^990", "why_tests_cant": "rounding of the quantile, the position and the cumulated weights can move the result across a boundary for some inputs only; the bound must hold for every input", "anchors": ["impl/uniform_snapshot.go: GetValue, GetMedian, Get75thPercentile, Get95thPercentile, Get98thPercentile, Get99thPercentile, Get999thPercentile", "impl/weighted_snapshot.go: GetValue, searchQuantile, GetMedian, Get75thPercentile, Get95thPercentile, Get98thPercentile, Get99thPercentile, Get999thPercentile"]}
{"id": "C95", "title": "Successes, error codes and addons per interval", "statement": "With clock readings that do not go backwards, the counters a compass hands out by GetBucketSuccessCount, GetErrorCodeCounts and GetAddonCounts report, for every interval among the N newest with events of that kind and inside the queried range, exactly the number of calls with isSuccess, with that error code, or with that addon (calls that panicked for their error code left out) made in that interval, and no other intervals.", "quantifier": "every history of calls on a compass with any limits and labels and any reservoir that does not panic, every non-decreasing clock, every query", "why_tests_cant": "all histories and arrival orders of labels", "anchors": ["impl/default_compass.go: GetBucketSuccessCount, GetErrorCodeCounts, GetAddonCounts, UpdateWithError", "impl/default_bucket_counter.go: GetBucketCountsSince"]}
{"id": "C96", "title": "Metric names and the maps they were made from", "statement": "A MetricName made from a fresh map that no other name uses and that is not written to afterwards has a HashKey computed from its key and the tags it was made with, whatever the program does with other names and maps. After the first HashKey it never changes, whatever is written to any map. Names made with nil tags have their key as hash key as long as nobody writes a tag into any of them - but they all share one map, so that a tag written into one appears in the hash keys of all the others not yet computed (refuted: independence), and a name does not copy the caller's map (refuted).", "quantifier": "all programs that create maps and names, write to maps directly or through names and ask for hash keys, in any order; all map iteration orders", "why_tests_cant": "aliasing shows only in particular orders of creation, writing and first use", "anchors": ["metric_name.go: NewMetricName, HashKey, emptyTags"]}
{"id": "C97", "title": "Snapshots of a bucket compass while others update it", "statement": "Any number of goroutines call Update on a compass with a bucket reservoir while GetSnapshot runs, all clock readings in one interval (after the first second of the clock). The value of the snapshot is the sum of the durations of a set A of the calls; its count, if not 0, is the number of calls in a set B that contains A: a duration never shows before its call was counted. So with durations between 0 and D the mean is always between 0 and D. Calls over before the snapshot began are in B unless the count is 0 and in A unless A is empty. When all updates are over, a snapshot shows exactly their number and the sum of their durations. A snapshot that nobody interrupts is what its sequential description says. The same holds on a whole compass while rates are read, errors and addons recorded and other snapshots taken. Refuted: the mean is never below the smallest duration (an update half done); a snapshot contains every update that had returned (the bucket may exist but not be linked yet); the same across an interval boundary (an update counted in one interval and added in the next makes the mean exceed every duration).", "quantifier": "all numbers of goroutines, all interleavings of single loads, stores and atomic operations, all clock readings of one interval, all durations, all map iteration orders", "why_tests_cant": "the races have windows of single instructions; a mean above the maximum would need the exact wrong order of two counters", "anchors": ["impl/default_compass.go: Update, GetSnapshot", "impl/bucket_reservoir.go: UpdateN, GetSnapshot, fetchValueFromMap, alignToBucketStartTimeInMs", "impl/default_bucket_counter.go: UpdateN, GetBucketCountsSince"]}
{"id": "C98", "title": "How much memory the metrics keep", "statement": "Whatever is recorded, for however long, with whatever labels and by however many goroutines: a bucket counter made for N buckets keeps at most N+2 buckets (N+1 if it is used by one goroutine at a time), and calls under way keep at most one more each; buckets that nothing points to never come back. Hence a compass keeps at most (2+maxErr+maxAdd)·(N+2) buckets ((3+…)·(N+2) with a bucket reservoir) and a fast compass at most maxSubCategories·(N+2). N+2 is attained. The limit of a registry and the manager, on the other hand, bound nothing of the kind: a registry keeps one entry for every name ever asked for, a manager one registry for every group.", "quantifier": "every schedule of any number of calls with arbitrary clock readings and labels; every number of names and groups", "why_tests_cant": "A leak shows only after arbitrarily long use, and the extra bucket only under a particular interleaving; tests observe one finite run.", "anchors": ["impl/default_bucket_counter.go: UpdateN, GetBucketCountsSince", "impl/bucket_queue.go: addLast, newBucketDequeue", "impl/default_compass.go: UpdateWithError, findOrNewCounter", "impl/default_fast_compass.go: Record", "impl/default_registry.go: getMetric, GetCompass, GetFastCompass", "impl/default_metric_manager.go: getMetricRegistry"]}
{"id": "C99", "title": "From GetCompass to the counters, with everything overlapping", "statement": "In a program in which any number of goroutines look metrics up (racing on new names) and call Update, UpdateWithError, rate getters, GetSnapshot and Record on what they got, all of it overlapping in any way: the metric behind a finished GetCompass counts exactly the updates begun through any lookup of that key in that registry or group (between the finished ones and all at every moment, exactly all of them once the calls are over, with successes, known error codes, known addons, averages and values), never more than 20 codes and 20 addons, within a fixed amount of memory and without internal panics; while clock readings are in one interval and durations between 0 and D every snapshot taken of it has a mean between 0 and D; the fast compass behind a finished GetFastCompass holds exactly the Record calls begun through any lookup of that key, each once, in some order; and the calls on a metric can always be brought to their end by steps of those calls alone.", "quantifier": "every schedule of lookups, SetEnable calls, and steps of calls on all metrics; every key, level, limit, argument and clock reading", "why_tests_cant": "The claim is about every interleaving of a two-layer system (lookup races and races inside the metric); a test executes one, and a lost update through a duplicate object or a skipped counter leaves no trace in most.", "anchors": ["impl/default_registry.go: getMetric, GetCompass, GetFastCompass", "impl/default_metric_manager.go: GetCompass, GetFastCompass", "impl/default_compass.go: Update, UpdateWithError, GetSnapshot, NewCompassWithType", "impl/bucket_reservoir.go: UpdateN", "impl/default_fast_compass.go: Record"]}
{"id": "C100", "title": "Under a fair scheduler every call ends", "statement": "Whatever calls have been made and wherever they stand: if from now on no new calls start and the scheduler is fair (every call gets a turn again and again, in any order, with any clock readings), then after finitely many turns all calls are over, and stay over. This holds of Update/UpdateN of a bucket counter, of lookups and SetEnable, of Update, Tick and TickN of an average, of HashKey, of tickIfNecessary, of Record of a fast compass, and of all calls (Update, UpdateWithError, rate getters, GetSnapshot) of a compass with any of the three reservoirs. For the uniform reservoir the random source must also, again and again, give a word of the lower half; without that it is false. The same holds of a whole program of registries, manager, lookups, SetEnable and overlapping calls on the metrics that were returned. When it has come to rest, the numbers of every compass it looked up are exact, and every fast compass holds what all Record calls begun through lookups of its name leave behind, each made once.", "quantifier": "every history, every infinite fair schedule without new calls, every sequence of clock readings (and of random words, of which infinitely many per call are at most 2^62)", "why_tests_cant": "It is about infinite schedules: a test that hangs cannot be told from a slow one, and one that ends says nothing about another schedule, in which compare-and-swap loops could defeat each other forever or a lock could stay taken.", "anchors": ["impl/default_compass.go: UpdateWithError, tickIfNecessary, GetSnapshot", "ewma.go: Update, Tick, TickN", "impl/default_bucket_counter.go: UpdateN, GetBucketCountsSince", "impl/uniform_reservoir.go: UpdateN, nextRandomPos", "impl/exponentially_decaying_reservoir.go: UpdateN, rescaleIfNeeded", "impl/default_fast_compass.go: Record", "metric_name.go: HashKey", "impl/default_registry.go: getMetric", "impl/default_metric_manager.go: GetCompass, GetFastCompass, SetEnable"]}
{"id": "C101", "title": "What unsynchronised loads of old values cannot break", "statement": "Go does not promise that an ordinary load sees the last value another goroutine stored. Let every unsynchronised load of a location that is raced for (C88) return any earlier value, as old as one likes except older than what the calling call itself last stored there. Still: (averages) no event is lost or counted twice by Update and Tick, and the average is that of some order of the ticks; (compass) each Update is ticked exactly once and there is at most one tick per boundary; (bucket counters) Update adds every count to the total exactly once, buckets stay in order and apart, what a query reports for an interval is exactly what was credited to it, and an update is credited to the interval of a clock reading some call made; (registries, manager) lookups of the same key return the same metric, of different keys never the same object, entries stay, one registry per group, kinds never mix, and a lookup is refused only if the registry is full; (decaying reservoir) no panic, no value that was not recorded, never more samples than the capacity, rescaling only when due, and top-k while no rescale is due. What it can break, each with a schedule in which no two calls overlap: a registry may exceed its limit, a disabled manager may still be found enabled, a bucket may be replaced and drop out of the report, two calls may rescale in the same period, and a weight may belong to the landmark of before a rescale.", "quantifier": "every schedule of any number of calls, every clock reading and draw, and for each racy load every earlier moment it may see", "why_tests_cant": "Which old value a load returns is up to the hardware and the compiler; tests on one machine see almost none of the behaviours the memory model allows.", "anchors": ["ewma.go: Update, Tick", "impl/default_compass.go: Update, tickIfNecessary", "impl/default_bucket_counter.go: UpdateN", "impl/default_registry.go: getMetric", "impl/default_metric_manager.go: GetCompass, GetFastCompass, SetEnable", "impl/exponentially_decaying_reservoir.go: UpdateN, rescaleIfNeeded, Size, GetSnapshot"]}
{"id": "C102", "title": "What callers change by writing to what they were given", "statement": "The maps returned by GetMetrics, GetCompasses and GetFastCompasses are copies: whatever callers add, replace or remove in them, every lookup and every later enumeration is as if they had not. But their entries are the registry's own: assigning another metric to an entry replaces that name's metric for everybody (a lookup of the other kind then panics) and no other name's. The counters returned by GetBucketSuccessCount, GetErrorCodeCounts and GetAddonCounts are the compass's own: after any mixture of calls on the compass and updates of such counters, each counter is off by exactly what was added through it and everything else is unchanged; so a compass can report more successes than calls. The slice GetEnableMetrics returns for 'all' is one slice for the whole program: a caller who writes to it changes the result for every configuration that lists 'all'; callers who write only to slices they made get what C45 says.", "quantifier": "every history of lookups, enumerations, calls and writes through results that were handed out, for every registry limit, reservoir and counter geometry", "why_tests_cant": "Tests do not write to the results they inspect; that nothing leaks, or exactly what does, is a statement about all mixtures of calls and writes.", "anchors": ["impl/default_registry.go: GetMetrics, GetCompasses, GetFastCompasses, getMetric", "impl/default_compass.go: GetBucketSuccessCount, GetErrorCodeCounts, GetAddonCounts", "config/metric_config.go: allMetrics, GetEnableMetrics"]}
{"id": "C103", "title": "Configuration documents: what a JSON document sets, and what it cannot set", "statement": "Reading a configuration from a JSON document with encoding/json: each of the numbers max_subcategory_count, global_interval, max_compass_error_code_count, reservoir_type, bucket_count, and manager, enables and the entries of level_interval, takes the value that stands last under its key, whatever the case of the key; fields whose key is absent keep their value; an error is reported exactly if some value does not fit the field its key names, and reading goes on. A configuration that is written and read again is the same - except for the limit of metrics per registry and the limit of addons, whose tags both give the key max_metric_count_per_registry: no document changes them, they are never written, and a configuration read from a document always has the defaults 5000 and 20, without any error. The interval is taken as nanoseconds although its documentation says seconds, so any number of seconds up to 10^9 yields the default of 60 s.", "quantifier": "every document (any keys, duplicates, nesting and values), every configuration", "why_tests_cant": "The statements range over all documents; that no document at all can set two of the options is not a matter of trying some.", "anchors": ["config/metric_config.go: MetricConfig (json tags), GetMaxMetricCountPerRegistry, GetMaxCompassAddonCount, GetGlobalInterval, GetMetricConfig"]}
{"id": "C104", "title": "What the statistics promise if the compiler fuses multiplications and additions", "statement": "Go allows x*y + z to be computed without rounding x*y, at the compiler's choice (it is done on arm64, ppc64, s390x and riscv64). However each place and each loop iteration is compiled: moving averages stay within the range of the instantaneous rates, decay without changing sign when idle and are as close to the exact averages as without fusing; the percentiles of uniform snapshots fail exactly for quantiles outside [0, 1], never panic and are within (n + 4) 2^-50 of the largest magnitude of the interpolated value; variances are never negative; means, variances and standard deviations of uniform and weighted snapshots keep the error bounds they have without fusing. With only the last addition of GetValue fused, percentiles stay between the minimum and the maximum and are monotone. With the subtraction of the position's integer part fused they are not: the 95th percentile of 38 zeros and one 1000000 is negative. If nothing is fused, all results are those of the other properties; with no value or only one value the choices do not matter: the statistics are 0, the mean of an empty weighted snapshot with an error.", "quantifier": "every history, every snapshot in the stated ranges, every choice of fused operations per place and iteration", "why_tests_cant": "Tests run on one architecture with one compiler's choices; the statements range over all choices and inputs.", "anchors": ["ewma.go: TickN", "impl/uniform_snapshot.go: GetValue, GetStdDev", "impl/weighted_snapshot.go: GetMean, GetStdDev"]}
{"id": "C105", "title": "Measurements taken within one clock reading", "statement": "Both sampling reservoirs seed a new random generator with time.Now().UnixNano() in every update, and math/rand documents that seeds equal modulo 2^31-1 give the same numbers. Which updates a uniform reservoir keeps is therefore a function of the readings of time.Now() modulo 2^31-1 alone: whatever the values, all reservoirs of one capacity updated at the same readings hold the values of the same updates. A decaying reservoir holds as many samples as there are different priorities among those it held and those of the updates made while Size() was below the capacity; once Size() reports the capacity, that number does not change until the next rescale, and until the first rescale it is never more than the number of different pairs (second, reading modulo 2^31-1) among the first updates up to the capacity. A burst within one reading leaves a single sample, that of the last update made while Size() was below the capacity, although Size() counts the burst. Refuted: that the number of samples held is Size().", "quantifier": "every generator that meets the documentation, every history of updates that do not overlap, every value, capacity and clock reading, every lawful rounding and exponential; draws that are not zero", "why_tests_cant": "How many updates share a clock reading depends on the machine and on the schedule; tests see one clock and sleep between updates.", "anchors": ["impl/uniform_reservoir.go: UpdateN, nextRandomPos", "impl/exponentially_decaying_reservoir.go: UpdateN, Size, GetSnapshot"]}
{"id": "C106", "title": "The sign of zero", "statement": "float64 has two zeros, which compare equal but are different divisors. In no computation of the library does the sign of a zero matter: moving averages, mean rates, bucket intervals, percentiles, means and deviations of uniform, weighted and bucket snapshots, and the samples, size, panics and snapshots of decaying reservoirs are, apart from the sign of a result that is zero, what they are when zero has no sign (so the other statements about them hold with IEEE-754 zeros). No getter returns -0: rates per positive unit, mean rates, percentiles (for every quantile, also -0), means and deviations are never -0. Refuted: rates per negative unit.", "quantifier": "every history of calls, every alpha, interval and quantile (including -0, infinities and NaN), every list of values and of weights of either sign, every lawful rounding in which 1 is exact; the statements about -0 for IEEE-754 binary64", "why_tests_cant": "A wrong sign needs an exact zero at the right place of a computation; tests compare with ==, for which both zeros are equal.", "anchors": ["ewma.go: TickN, GetRate", "impl/default_compass.go: GetMeanRate", "impl/uniform_snapshot.go: GetValue, GetMean, GetStdDev", "impl/weighted_snapshot.go: NewWeightedSnapshot, GetValue, GetMean, GetStdDev", "impl/bucket_snapshot.go: GetMean", "impl/exponentially_decaying_reservoir.go: UpdateN, rescale, GetSnapshot"]}
{"id": "C107", "title": "Bucket counts whatever unsynchronised loads return", "statement": "UpdateN loads the pointer to the latest bucket, that bucket's timestamp and the position of the queue without synchronisation. Let such a load return anything: any bucket, older or newer than the one stored last, with or without its timestamp visible yet, and any position. Then still no index is out of range; once all calls returned, the total and the contents of all buckets are the int64 sum of the arguments; every bucket contains exactly what the returned calls added to it; and a query, whatever it sees of the queue, reports for an interval the content of one bucket of that interval. If timestamps are visible with the buckets, there is moreover at most one bucket per interval, buckets are created in order of time and reports are exact. Refuted without that: two buckets for one interval, a report that misses counts, the latest bucket going back in time.", "quantifier": "every interval and number of buckets, every number of concurrent calls, every interleaving of their steps, every clock reading, every choice of what each plain load returns", "why_tests_cant": "Tests run on one processor architecture with one compiler; what racy loads may return there is a fraction of what Go's memory model permits.", "anchors": ["impl/default_bucket_counter.go: UpdateN, GetBucketCountsSince", "impl/bucket_queue.go: addLast, getBucketList"]}
{"id": "C108", "title": "What a rescale does in rounded arithmetic", "statement": "With float64 rounding (any lawful arithmetic), a clock that does not go back and any draws: a GetSnapshot call that is due for a rescale multiplies priority and weight of every sample by the same factor, at most 1. If the factor underflows to 0 the reservoir is emptied; otherwise all values stay, in the same order by priority, with the one exception that of samples whose scaled priorities are equal only the one with the highest priority before stays. A rescale never adds, changes or reorders values, and unless the factor underflows it leaves at least one. Refuted: that a rescale keeps all samples of a reservoir that is not full.", "quantifier": "every lawful rounding and exponential, every capacity, every rate that is not negative, every history of updates and snapshots with a forward clock, every draw including 0", "why_tests_cant": "The samples are deleted and re-inserted one by one while keys change; whether one insertion hits the key of another sample depends on the rounding of every product.", "anchors": ["impl/exponentially_decaying_reservoir.go: rescale, GetSnapshot, GetValues"]}
{"id": "C109", "title": "Accuracy of the weights and the statistics of a decaying reservoir in float64", "statement": "binary64 with a math.Exp accurate to 1 ulp; forward clocks that agree to a second; pauses between readings so short that a (3605 + pause in seconds) ≤ 600 (ten hours for the default rate); age at most K ≤ 2^30 hours. Then every sample a GetSnapshot call finds belongs to an update of its own, has its value, and its weight is exp(a (ts - L)), ts the second of the update and L the landmark, up to a relative error (K+1) 2^-40 plus K 2^-1074, however many rescales there were. And GetMean of the snapshot is the average of the values held with weights exp(a ts), up to (n 2^-50 + 3 (K+1) 2^-39) times the largest magnitude of a value, if one of the updates held is at most 600/a seconds older than the landmark. Under the same condition a percentile GetValue(c) is the value of an update held such that, with the exact weights, those with values sorted before it have at most the fraction c of the total weight and those up to and including it at least that, up to n 2^-50 + 3 (K+1) 2^-39; and GetStdDev is the standard deviation with the exact weights, up to (sqrt(8n) 2^-24 + 3 sqrt(2(K+1)) 2^-20) times the largest magnitude.", "quantifier": "every exponential accurate to 1 ulp, every rate, capacity, history, draw and clock readings within the stated limits, every order the sort leaves ties in, every fraction c, every square root accurate to 1 ulp", "why_tests_cant": "Rounding errors accumulate over rescales and depend on every reading and draw; tests compare a few numbers with a generous tolerance.", "anchors": ["impl/exponentially_decaying_reservoir.go: UpdateN, weight, rescale, GetSnapshot", "impl/weighted_snapshot.go: NewWeightedSnapshot, GetMean, GetValue, GetStdDev, GetMedian"]}
{"id": "C110", "title": "What a compass counts does not depend on what unsynchronised loads return", "statement": "NewCompass without a resolution problem (bucket interval at least 1 s), any number of goroutines that call Update, UpdateWithError, the rate getters and GetSnapshot, each step by step in any interleaving. Nothing is assumed of the plain loads: the load of the tick clock returns any number, a bucket counter's loads return any of its values as in C107, the load of a rate returns any number. Still at every moment GetCount, GetSuccessCount and the count of each error code lie between the number of matching calls that are over and the number that have started, the count of an addon at most the number started that carry it; when all calls are over they are exact, the reservoir has had each duration exactly once, and the event counts ticked into each of the three averages plus the not yet ticked events add up to the number of updates (mod 2^64), each average having folded all those counts. The number of error codes and addons never exceeds its limit, and a call that is over panicked exactly when its label has no counter. If clock readings do not go below zero and the bucket interval divides 5 s, no value of the tick clock is replaced twice, and each average ticks at most once per 5 s of that clock. The executions of C86 (loads return the latest stores) are among these. With a bucket reservoir, whose loads return anything too, the sum of values is that of some of the calls, at least those that are over, and of exactly all when all are over; no snapshot panics. And whatever those loads return, under a fair scheduler all calls end (C100): no load can make a call loop, wait or starve (for the bucket reservoir: as long as a snapshot finds rings of the length that the constructor gave them and a position in them; for the uniform reservoir: if the random source, again and again, gives a word of the lower half).", "quantifier": "every reservoir type that records the durations it is given, bucket interval ≥ 1 s, number of buckets, label limits, clock readings, load results, number of calls, interleaving, moment", "why_tests_cant": "A test on one machine sees neither torn or stale loads nor all interleavings; the Go memory model allows more than sequential consistency for these racy loads.", "anchors": ["impl/default_compass.go: UpdateWithError, tickIfNecessary, M1Rate, M5Rate, M15Rate, GetSnapshot", "impl/default_bucket_counter.go: Update", "impl/bucket_queue.go: peek", "ewma.go: GetRate, Tick"]}
{"id": "C111", "title": "64-bit atomic operations on 64-bit and on 32-bit platforms", "statement": "sync/atomic panics on 32-bit platforms (386, arm, mips) for 64-bit words that are not 8-byte aligned; only the first word of an allocated struct is aligned for certain. On 64-bit platforms every 64-bit atomic operation of the library is aligned and compasses, averages and decaying reservoirs behave as in the other properties. On 32-bit platforms counters and buckets are aligned too, but: every Update and UpdateWithError of a compass panics, whatever its reservoir and history, so that a compass stays as created (counts 0, no labels, reservoir untouched, mean rate 0) and its rate getters panic once 5 s have passed; Update and Tick of a moving average always panic, and only TickN has an effect; a decaying reservoir works as elsewhere until its clock is one hour after its creation, and from then on every UpdateN and GetSnapshot panics and changes nothing.", "quantifier": "every allocation address that is a multiple of 8, every history of calls (panics recovered by the callers), every reservoir, clock readings, rounding", "why_tests_cant": "Tests run on one platform; whether an operation faults depends on the struct's address and layout, and the claims range over all addresses and all histories.", "anchors": ["ewma.go: EWMA, Update, Tick, TickN", "impl/default_compass.go: DefaultCompass, Update, UpdateWithError, tickIfNecessary", "impl/exponentially_decaying_reservoir.go: ExponentiallyDecayingReservoir, rescale", "impl/counter_impl.go: counterImpl", "impl/bucket_queue.go: bucket"]}
{"id": "C112", "title": "Which arguments the constructors accept", "statement": "For every int given as a number of buckets, newBucketCounterImpl, NewBucketReservoir, NewCompass and NewCompassWithType (for every reservoir type, interval, limits and clock readings, negative ones included) panic exactly if it is negative (or the largest int, whose successor overflows), and otherwise return the object of the other properties; NewUniformReservoir panics exactly for negative sizes. A fast compass with a negative number of buckets can be created, but never has a category: every Record leaves it unchanged, and panics exactly if the duration is not negative, the category not empty and the limit positive.", "quantifier": "every int64 argument, every history of Record calls", "why_tests_cant": "The claim is an equivalence over all integers, and for the fast compass over all histories.", "anchors": ["impl/bucket_queue.go: newBucketDequeue, peek", "impl/default_bucket_counter.go: newBucketCounterImpl", "impl/default_compass.go: NewCompass, NewCompassWithType", "impl/bucket_reservoir.go: NewBucketReservoir", "impl/uniform_reservoir.go: NewUniformReservoir", "impl/default_fast_compass.go: newFastCompass, Record"]}
{"id": "C113", "title": "Program-wide counts do not depend on what unsynchronised loads return", "statement": "A program whose goroutines look metrics up by name through registries and the manager, in any interleaving, and call Update, UpdateWithError, the rate getters, GetSnapshot and Record on what they got, calls overlapping in any way. Nothing is assumed of the plain loads in compasses: those of the tick clock, the latest bucket and its timestamp, the position of the bucket queue, a rate, and all that a snapshot of the bucket reservoir loads may return anything. Still the compass behind a name has received exactly the calls begun through results of lookups of that name; at every moment its counts lie between the calls that are over and those begun, and its value sum is that of a set of calls between the same bounds; there are at most 20 error codes and addons; no call is stopped by an internal fault; when all calls on it are over total, successes, known error codes, known addons, averages and value sum are exact. A fast compass behind a name is as in C99. The runs of C99 are among these. Once nothing new starts, a fair scheduler brings every such program to rest: all lookups and all calls are over after finitely many steps, and from then on the numbers of every compass are exact and every fast compass holds what its Record calls leave behind, each made once (again as long as snapshots find rings of the right length and positions in them).", "quantifier": "every program run: registries and limits, interleaving of lookups and calls, names, arguments, clock readings, results of loads, moment", "why_tests_cant": "The interleavings and the results of racy loads cannot be enumerated, and on one machine most of them do not occur.", "anchors": ["impl/default_registry.go: GetCompass, GetFastCompass", "impl/default_metric_manager.go: GetCompass", "impl/default_compass.go: UpdateWithError, tickIfNecessary, GetSnapshot", "impl/bucket_reservoir.go: UpdateN, GetSnapshot", "impl/default_bucket_counter.go: UpdateN", "impl/default_fast_compass.go: Record"]}
{"id": "C114", "title": "How fast a decaying reservoir forgets", "statement": "Updates and snapshots of an exponentially decaying reservoir with alpha and `size` places, in exact arithmetic, where each update draws, independently, one of N numbers k/N (0 <= k < N; rand.Float64 has N = 2^53) with the same chance; ties and draws of zero are allowed. A measurement that at least `size` others are at least d seconds newer than, m of them in all, is still in the reservoir with a chance of at most m/(2(m-size+1)) * e^(-alpha d) + n^2/N, n being the number of all updates; if m >= 2*size, at most e^(-alpha d) + n^2/N. A measurement than which all others but r < size are at least d seconds older, m of them, is missing with a chance of at most m/(2(size-r)) * e^(-alpha d) + n^2/N. Of two measurements, the one not made in an earlier second has at least the chance of the other, up to 2n^2/N.", "quantifier": "all histories of updates and snapshots with different values and times that do not go back, all sizes, alphas, N, measurements, sets of newer or older ones and distances d", "why_tests_cant": "A simulation estimates one chance of one history with a statistical error, and a chance like e^-15 cannot be seen in any feasible number of runs; the bound is for all histories.", "anchors": ["impl/exponentially_decaying_reservoir.go: UpdateN, rescaleIfNeeded, weight"]}
{"id": "C115", "title": "What a decaying reservoir keeps in its first hour, in float64", "statement": "Updates and snapshots of an exponentially decaying reservoir with `size` places, in the first hour (of ticks) after its creation, with the rounding of float64 and math.Exp as they are. If no two updates get the same priority (weight / draw, rounded), then the samples held are the `size` updates with the highest priorities (all if there are fewer), each with its own value and weight, and Size() is their number; so a value is held exactly if fewer than `size` updates have a higher priority. If moreover math.Exp is accurate to 1 ulp and each update draws, independently, one of the 2^53 numbers of rand.Float64 with the same chance (ties and draws of zero allowed): a measurement that at least `size` others are at least d seconds newer than, m of them in all, is still held with a chance of at most m/(2(m-size+1)) * e^(-alpha d) (1 + 2^-39) + 5 n^2 / 2^53, n being the number of all updates; a measurement than which all others but r < size are at least d seconds older, m of them, is missing with a chance of at most m/(2(size-r)) * e^(-alpha d) (1 + 2^-39) + 5 n^2 / 2^53; and of two measurements the one not made in an earlier second has at least the chance of the other, up to 10 n^2 / 2^53 (for alpha >= 2^-39).", "quantifier": "all histories of updates and snapshots in the first hour with alpha times the distance to the creation at most 600 (for the chances), all sizes, alphas, draws, lawful arithmetics, measurements, sets of newer or older ones and distances d", "why_tests_cant": "Rounded priorities can be equal and then overwrite each other; which histories and draws make a difference is a question about all of them, and chances like e^-15 cannot be seen in any feasible number of runs.", "anchors": ["impl/exponentially_decaying_reservoir.go: UpdateN, rescaleIfNeeded, weight, Size, GetSnapshot"]}
{"id": "C116", "title": "How good the statistics of a uniform reservoir are as estimates of the stream", "statement": "Take any stream of n values (repetitions allowed) recorded by a uniform reservoir with `capacity` <= n places, and all the words its random source may deliver. The mean of the sampled values, averaged over the words, is exactly the mean of the stream; its mean square error is variance/capacity * (n-capacity)/(n-1), so it is off by t or more for at most the part variance/(capacity t^2) of the words; and GetMean() is that mean rounded once (sums below 2^53). For any condition on values, the part of the sample satisfying it exceeds (falls short of) the part of the stream satisfying it by eps or more for at most the part exp(-2 capacity eps^2) of the words. GetValue(q), in float64, is a q-quantile of the whole stream up to eps + 2/capacity except for at most the part 2 exp(-2 capacity eps^2): for the 1024 places a compass uses by default, up to 5.2 percentage points except for one in eighty.", "quantifier": "all streams, capacities, conditions on values, quantiles, tolerances, numbers of words per update and lawful roundings exact on integers below 2^53; over all tables of random words for which the updates return", "why_tests_cant": "It quantifies over all streams and all words of the random source; a run sees one sample of one stream and cannot tell a slightly biased sampler from a fair one.", "anchors": ["impl/uniform_reservoir.go: UpdateN, nextRandomPos, GetSnapshot, defaultUniformReservoirSize", "impl/uniform_snapshot.go: NewUniformSnapshot, GetValue, GetMean, GetValues"]}
{"id": "C117", "title": "A decaying reservoir as an estimator: fair within one second, weights counted twice across seconds", "statement": "Take a decaying reservoir of `size` places and a history of updates and snapshots with a clock that does not go back. If all updates fall in the same second and there are at least `size` of them, the reservoir holds the values at each set of `size` positions of the stream with the same chance (up to n^2/2^53 for draws of zero and ties): whatever is asked of the values it holds has the chance it has for a uniform reservoir of that size; so the part of values satisfying a condition is overestimated by eps or more with a chance of at most exp(-2 size eps^2), and GetMean is off the mean of the stream by t or more with a chance of at most variance/(size t^2). Across seconds it is not an estimate of the time-weighted mean (in which a value counts e^alpha times as much as one a second older): after m >= size values 0 and, d seconds later, one value 1, that mean is W/(W+m) with W = e^(alpha d), but GetMean returns W/(W+size-1) except with a chance of at most m/(2 size W): newer values are likelier to be kept in proportion to their weight and then counted with that weight again. Claimed and refuted: with a chance of at least one half GetMean is at most a hundred times the time-weighted mean.", "quantifier": "all sizes, creation times, histories in one second with at least `size` updates, questions about the values that do not depend on their order, tolerances, draw grids k/N; for the second part all m, d, sizes <= m and histories with those updates; all orders a sort of equal values may produce", "why_tests_cant": "It quantifies over all histories and all draws of the random source; a run sees one sample.", "anchors": ["impl/exponentially_decaying_reservoir.go: UpdateN, weight, GetSnapshot", "impl/weighted_snapshot.go: NewWeightedSnapshot, GetMean", "impl/uniform_reservoir.go: UpdateN (for the comparison)"]}
{"id": "C118", "title": "What the snapshot of a compass says about the durations recorded", "statement": "Take a Compass created with an interval of at least a second and any sequence of Update, UpdateWithError (returning or panicking on too many error codes), rate reads and snapshots that records at least 1024 durations. With a uniform reservoir (type 1), over all random words with which the searches for a position end: GetSnapshot holds exactly what a uniform reservoir of capacity 1024 fed with these durations holds; its mean is on average the mean of the durations and off by t or more in at most variance/(1024 t^2) of the cases; any quantile it reports is a quantile of the durations up to 5.2 percentage points except in 1 of 80 cases. With the default decaying reservoir (any type but 0 and 1), if the calls fall into one second and record at least 1028 durations: whatever is asked of the values in the snapshot (in no particular order) has the chance it has for a uniform reservoir of capacity 1028, up to n^2/2^53.", "quantifier": "all compass parameters with interval >= 1 s, all sequences of calls with their clock readings, labels and durations, all random words / draws, all quantiles and tolerances", "why_tests_cant": "It quantifies over all histories of calls and all outputs of the random source; a run sees one sample.", "anchors": ["impl/default_compass.go: NewCompassWithType, Update, UpdateWithError, GetSnapshot", "impl/uniform_reservoir.go: UpdateN, nextRandomPos, GetSnapshot", "impl/exponentially_decaying_reservoir.go: UpdateN, GetSnapshot", "impl/uniform_snapshot.go: GetValue, GetValues"]}
{"id": "C119", "title": "A uniform reservoir used by many goroutines is still a fair sample of what they recorded", "statement": "Fix any schedule of UpdateN, Size and GetSnapshot calls on one uniform reservoir: which calls start and whose turn it is, at the granularity of single loads, stores and random words. Over all random words the source may deliver to the turns: among those with which the updates of vs have been made in this order and nobody is inside UpdateN, any content of the reservoir has exactly the chance it has after the same updates made one after the other. So, among the words with which all n >= capacity updates get through: if the values are different each is in the sample with probability exactly capacity/n, whoever recorded it; the mean of the snapshot is on average the mean of everything recorded and off by t or more in at most variance/(capacity t^2) of the cases; each quantile it reports is a quantile of everything recorded up to e + 2/capacity except in 2 exp(-2 capacity e^2) of the cases (capacity 1024: 5.2 percentage points, 1 in 80).", "quantifier": "all capacities, all schedules of any number of overlapping calls, all values, all random words, all contents, quantiles and tolerances", "why_tests_cant": "It is a statement about all interleavings and, for each of them, about all outputs of the random source; a run sees one of each.", "anchors": ["impl/uniform_reservoir.go: UpdateN, nextRandomPos, Size, GetSnapshot", "impl/uniform_snapshot.go: GetValue, GetValues"]}
{"id": "C120", "title": "The decaying statistics of a compass in float64, and how fast it forgets", "statement": "A compass of any type but the bucket and the uniform one, in float64 with math.Exp accurate to 1 ulp, after any history of calls whose clocks do not go back, never pause for more than ten hours and agree to a second: its snapshot is made of at most 1028 different recorded durations. If one of them was recorded in the last eleven hours, GetMean is the mean in which a duration of second ts counts exp(a ts) (a the float64 next to 0.015), off by at most (4 + 3 hours) 2^-39 of the largest duration; GetValue(c) is the duration at which the weights reach the fraction c, up to the same error; GetStdDev is the weighted standard deviation up to (2^-17 + 3 sqrt(2 (hours + 1)) 2^-20) of the largest duration. In its first hour, with the random numbers of rand.Float64: a duration recorded at least d seconds before 1028 or more others, m of them, is still in a snapshot with a chance of at most m / (2 (m - 1027)) e^(-a d), and one that all but k < 1028 others, m of them, are at least d seconds older than is missing with a chance of at most m / (2 (1028 - k)) e^(-a d), up to 2^-39 relatively and 5 n^2 / 2^53.", "quantifier": "all histories of Update, UpdateWithError, rate getters and snapshots - panicking calls included -, all bucket numbers, intervals of at least a second, limits, types other than 0 and 1, random numbers, fractions and ages", "why_tests_cant": "The errors depend on the whole history, and the chances are about all 2^53 values of every random number.", "anchors": ["impl/default_compass.go: UpdateWithError, Update, GetSnapshot, NewCompassWithType", "impl/exponentially_decaying_reservoir.go: UpdateN, rescale, GetSnapshot, NewExponentiallyDecayingReservoir", "impl/weighted_snapshot.go: GetMean, GetValue, GetStdDev"]}
{"id": "C121", "title": "Program-wide counts do not depend on what any unsynchronised load of the program returns", "statement": "As C113, and nothing is assumed either of the plain loads in registries and the manager: the one of the number of metrics, on which the choice of the no-op rests, and the one of the manager's switch may return anything at every lookup. Still all lookups of one key in one registry or group that got there return one metric, lookups of different keys or places never the same one but for the shared no-op, there is one registry per group, a registry holds exactly the keys asked for there, each once, the kind is the one asked for, and a lookup panics only if the other kind was asked for; the compass behind a name that is not the no-op has received exactly the calls begun through results of lookups of that name, its numbers lie between the calls that are over and those begun at every moment and are exact when all are over; a fast compass holds the Record calls made, each once. Once nothing new starts, a fair scheduler brings every such program to rest (again as long as snapshots find rings of the right length and positions in them), and from then on the numbers are exact. The runs of C113 and C99 are among these.", "quantifier": "every program run: registries and limits, interleaving of lookups, switch changes and calls, names, arguments, clock readings, results of loads, moment", "why_tests_cant": "The interleavings and the results of racy loads cannot be enumerated, and on one machine most of them do not occur.", "anchors": ["impl/default_registry.go: getMetric, GetCompass, GetFastCompass", "impl/default_metric_manager.go: GetCompass, GetFastCompass, SetEnable", "impl/default_compass.go: UpdateWithError, tickIfNecessary, GetSnapshot", "impl/bucket_reservoir.go: UpdateN, GetSnapshot", "impl/default_fast_compass.go: Record"]}
{"id": "C122", "title": "Intervals never report more than was counted", "statement": "What a counter reports for single intervals can be less than what was counted (a call that was late, a bucket that was replaced). It is never more, at any moment and whatever the unsynchronised loads of the program, and the query's own loads of the ring of buckets, return: what GetBucketCounts reports for each interval is the sum of the arguments of some of the calls, no call is reported by two intervals, and an interval begins at a whole second not before the start that was asked for. So it is for a bucket counter used directly, and for what the compass behind a name reports per interval as calls, successes, calls with an error code or an addon - parts of the calls begun through results of lookups of that name, of those with that success, code or addon - and as sums of durations. With fewer than 2^63 calls no interval reports a negative number of calls, and all intervals together never more than there were.", "quantifier": "every program run: registries and limits, interleaving of lookups, switch changes and calls, names, arguments, clock readings, results of loads, moment, query, and what it sees of the ring", "why_tests_cant": "Counting a call in two intervals takes an interleaving of bucket creation with racy loads; those and their results cannot be enumerated, and on one machine most of them do not occur.", "anchors": ["impl/default_bucket_counter.go: UpdateN, GetBucketCountsSince", "impl/bucket_queue.go: getBucketList, addLast", "impl/default_compass.go: UpdateWithError, GetBucketSuccessCount, GetErrorCodeCounts, GetAddonCounts", "impl/bucket_reservoir.go: UpdateN"]}
{"id": "C123", "title": "A category's intervals never report more than was recorded", "statement": "What a fast compass reports for single intervals of a category can be less than what was recorded for it (a category over the limit, an interval that fell out of the window). It is never more: as long as a category has fewer than 2^26 calls and 2^38 milliseconds in all, GetMethodCountPerCategorySince and GetMethodRtPerCategorySince report for each interval the number and the summed milliseconds of one and the same part of the Record calls with that category, no call is in two intervals' parts, and an interval begins at a whole second not before the start that was asked for. So it is for a fast compass used by any number of goroutines at every moment of every interleaving of the small steps of Record, also while a call is inside the lock (the getters do not take it), also for a getter that loads one number after the other beside the calls, and for the one behind the result of GetFastCompass in any run of the program, of the calls begun through results of lookups of that name. The limit cannot be dropped: one call of 2^38 ms is reported as two calls.", "quantifier": "every history of Record calls, interval, window, limit on categories, clock reading of a query and start asked for; every program run: registries and limits, interleaving of lookups, switch changes and calls, names, arguments, results of loads, moment", "why_tests_cant": "Double counting takes an interleaving of category and bucket creation with other calls; those cannot be enumerated, nor can the histories up to the limit of the packing.", "anchors": ["impl/default_fast_compass.go: Record, GetMethodCountPerCategorySince, GetMethodRtPerCategorySince", "impl/default_bucket_counter.go: UpdateN, GetBucketCountsSince"]}
