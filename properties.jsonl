{"id": "C01", "title": "ValidateMoney accepts exactly the documented set", "statement": "ValidateMoney returns OK exactly when the currency code has length 3, the nanos field lies in [-999999999, 999999999] and the signs of units and nanos do not disagree; otherwise it returns INVALID_ARGUMENT.", "quantifier": "every Money message (every currency string, int64 units, int32 nanos)", "why_tests_cant": "the domain is 2^96 numeric pairs times all strings; tests pick a dozen points", "anchors": ["src/money_utils.cc: ValidateMoney", "src/money_utils.h"]}
{"id": "C02", "title": "A successful TryAddMoney is exact", "statement": "When TryAddMoney returns OK for two valid amounts of the same currency, the result is a valid amount of that currency whose value in nanos is exactly the sum of the two values.", "quantifier": "every pair of valid Money values", "why_tests_cant": "carry, borrow and sign adjustment interact; only a proof covers all pairs", "anchors": ["src/money_utils.cc: TryAddMoney"]}
{"id": "C03", "title": "TryAddMoney reports overflow exactly when the sum is not representable", "statement": "For valid same-currency amounts TryAddMoney returns OUT_OF_RANGE (with the saturated extreme) if and only if the exact sum is outside the representable range, and never executes an undefined operation.", "quantifier": "every pair of valid Money values", "why_tests_cant": "the failing inputs (two sub-unit amounts of the same sign; sums that overflow int64) are exactly those the tests leave out", "anchors": ["src/money_utils.cc: TryAddMoney", "src/money_utils.cc: GetAmountSign"]}
{"id": "C04", "title": "SaturatedAddMoney is commutative and saturates; currency mismatch is rejected", "statement": "TryAddMoney/SaturatedAddMoney do not depend on the order of the arguments; with different currency codes TryAddMoney clears the output and returns INVALID_ARGUMENT (and SaturatedAddMoney aborts).", "quantifier": "every pair of Money values", "why_tests_cant": "universally quantified algebraic law", "anchors": ["src/money_utils.cc: TryAddMoney", "src/money_utils.cc: SaturatedAddMoney"]}
{"id": "C05", "title": "Every sample lands in exactly one bucket", "statement": "After any sequence of successful AddSample calls on an initialised distribution, count equals the number of samples and the sum of the bucket counts, the number of buckets is unchanged, and no bucket index is ever out of range.", "quantifier": "every bucket layout, every finite sequence of samples", "why_tests_cant": "unbounded sample sequences and bucket layouts", "anchors": ["utils/distribution_helper.cc: AddSample", "utils/distribution_helper.cc: UpdateLinearBucketCount", "utils/distribution_helper.cc: UpdateExplicitBucketCount", "utils/distribution_helper.cc: UpdateExponentialBucketCount"]}
{"id": "C06", "title": "The bucket that is incremented is the one whose range contains the sample", "statement": "AddSample increments the underflow bucket for values below the first bound, the overflow bucket for values at or above the last bound, and otherwise the bucket i with bound(i-1) <= value < bound(i), for linear, exponential and explicit layouts.", "quantifier": "every layout accepted by Init*, every sample value (exact real arithmetic)", "why_tests_cant": "infinitely many values and layouts, the boundary cases are of measure zero for tests", "anchors": ["utils/distribution_helper.cc: Update*BucketCount"]}
{"id": "C07", "title": "Count, mean, minimum, maximum and sum of squared deviation describe the samples", "statement": "After adding any non-empty list of samples to a fresh distribution, count, mean, minimum, maximum and sum_of_squared_deviation equal the corresponding statistics of the list (exact arithmetic).", "quantifier": "every non-empty list of samples", "why_tests_cant": "incremental formula must be right for every prefix", "anchors": ["utils/distribution_helper.cc: UpdateGeneralStatictics"]}
{"id": "C08", "title": "Merging two distributions equals adding all samples to one", "statement": "If two distributions with matching buckets were built from sample lists xs and ys, Merge produces the distribution of xs followed by ys: same count, bucket counts, mean, minimum, maximum and squared deviation (exact arithmetic).", "quantifier": "every layout and every pair of sample lists", "why_tests_cant": "algebraic law over unbounded lists", "anchors": ["utils/distribution_helper.cc: Merge"]}
{"id": "C09", "title": "A rejected Merge changes nothing; an accepted one adds counts bucket by bucket", "statement": "Merge returns INVALID_ARGUMENT and leaves the target unchanged when the bucket options or the number of buckets differ; otherwise, if both sides have samples, the target count and every bucket count become the sums.", "quantifier": "every pair of distributions, any double arithmetic", "why_tests_cant": "error paths for every shape", "anchors": ["utils/distribution_helper.cc: Merge", "utils/distribution_helper.cc: BucketsApproximatelyEqual"]}
{"id": "C10", "title": "Init* rejects exactly the invalid layouts and otherwise produces an empty distribution of the right size", "statement": "InitLinear/InitExponential/InitExplicit return INVALID_ARGUMENT without touching the message exactly for the documented invalid arguments; otherwise a fresh message gets the layout and num_finite_buckets+2 (bounds+1) zero buckets.", "quantifier": "all arguments", "why_tests_cant": "all sizes and all bound vectors", "anchors": ["utils/distribution_helper.cc: InitLinear", "utils/distribution_helper.cc: InitExponential", "utils/distribution_helper.cc: InitExplicit"]}
{"id": "C11", "title": "Signatures do not depend on map order or on irrelevant fields", "statement": "The report, check, metric-value and quota signatures are unchanged when label maps, metric sets (check) or quota metrics (quota) are listed in another order, and when fields outside the documented set change.", "quantifier": "every request, every permutation, every hash function", "why_tests_cant": "all permutations of all maps", "anchors": ["src/signature.cc"]}
{"id": "C12", "title": "Report operations with different identity have different signatures", "statement": "Two operations whose consumer id, operation name and labels contain no NUL byte have the same report signature only if consumer id, operation name and label map are equal (or the hash collides).", "quantifier": "all pairs of NUL-free operations", "why_tests_cant": "injectivity quantifies over all pairs", "anchors": ["src/signature.cc: GenerateReportOperationSignature"]}
{"id": "C13", "title": "Check requests with different identity have different signatures", "statement": "Two check requests (NUL-free strings) have the same check signature only if operation name, consumer id, operation labels, metric names and metric-value labels are equal.", "quantifier": "all pairs of NUL-free requests", "why_tests_cant": "injectivity; false in the code: label and metric tokens are not delimited from each other", "anchors": ["src/signature.cc: GenerateCheckRequestSignature"]}
{"id": "C14", "title": "Quota requests have equal signatures exactly when method, consumer and metric-name set agree", "statement": "For NUL-free strings and a collision-free hash, AllocateQuota signatures coincide iff method name, consumer id and the set of metric names coincide.", "quantifier": "all pairs of NUL-free requests", "why_tests_cant": "injectivity", "anchors": ["src/signature.cc: GenerateAllocateQuotaRequestSignature"]}
{"id": "C15", "title": "Metric values are merged only when their label maps are equal", "statement": "The metric value signature of two NUL-free label maps is equal iff the maps are equal (collision-free hash).", "quantifier": "all pairs of label maps", "why_tests_cant": "injectivity", "anchors": ["src/signature.cc: GenerateReportMetricValueSignature"]}
{"id": "C16", "title": "Delta integer metrics are summed exactly", "statement": "Aggregating any non-empty sequence of operations yields, for each metric name and label signature whose values are all int64 deltas, exactly the sum of all the values in all operations, or the addition overflows int64.", "quantifier": "all sequences of operations, all metric kinds maps, all hash iteration orders", "why_tests_cant": "unbounded sequences", "anchors": ["src/operation_aggregator.cc: MergeOperation", "src/operation_aggregator.cc: ToOperationProto"]}
{"id": "C17", "title": "The aggregated time window is the hull of the inputs", "statement": "The aggregated operation's start time is the earliest start time among inputs that have one, and its end time the latest end time; it has one iff some input has one.", "quantifier": "all sequences of operations", "why_tests_cant": "unbounded sequences, optional fields", "anchors": ["src/operation_aggregator.cc: MergeOperation", "src/operation_aggregator.cc: TimestampBefore"]}
{"id": "C18", "title": "Gauge and cumulative metrics keep the value with the latest end time", "statement": "For a metric whose kind is not DELTA the aggregate holds a value that was reported and whose end time is maximal, the last one reported among equals.", "quantifier": "all sequences of metric values", "why_tests_cant": "unbounded sequences and ties", "anchors": ["src/operation_aggregator.cc: MergeCumulativeOrGaugeMetricValue"]}
{"id": "C19", "title": "Log entries are concatenated in order and nothing is lost", "statement": "The aggregated operation's log entries are the concatenation of the inputs' log entries in merge order; TooBig is reported exactly from 100 entries on.", "quantifier": "all sequences of operations", "why_tests_cant": "unbounded sequences", "anchors": ["src/operation_aggregator.cc: MergeLogEntries", "src/operation_aggregator.cc: TooBig"]}
{"id": "C20", "title": "An aggregate lists every metric once and keeps the identity of its first operation", "statement": "ToOperationProto lists each metric name seen exactly once and for each name each label signature exactly once; all fields other than times, metrics and log entries are those of the first operation.", "quantifier": "all sequences of operations, all hash iteration orders", "why_tests_cant": "unbounded sequences", "anchors": ["src/operation_aggregator.cc: ToOperationProto"]}
{"id": "C21", "title": "Aggregation of delta integers does not depend on arrival order", "statement": "Permuting the operations merged does not change any per-metric per-label integer total, the set of metric names, or the time window.", "quantifier": "all permutations of all sequences", "why_tests_cant": "all permutations", "anchors": ["src/operation_aggregator.cc"]}
{"id": "C22", "title": "Values of incompatible type are dropped without damaging the stored value", "statement": "Merging a delta value of another type leaves the stored value and times unchanged; distribution values that cannot be merged leave the stored distribution unchanged.", "quantifier": "all pairs of metric values", "why_tests_cant": "all type combinations", "anchors": ["src/operation_aggregator.cc: MergeDeltaMetricValue"]}
{"id": "C23", "title": "Aggregated quota tokens are summed exactly per metric", "statement": "Aggregating any non-empty sequence of quota operations with exactly one int64 value per metric yields for each metric name exactly the sum of all requested amounts, or overflows int64; other fields come from the first operation.", "quantifier": "all sequences of quota operations", "why_tests_cant": "unbounded sequences", "anchors": ["src/quota_operation_aggregator.cc: MergeOperation", "src/quota_operation_aggregator.cc: ToOperationProto"]}
{"id": "C24", "title": "Cache size accounting is exact", "statement": "After any sequence of cache calls that respects the pin protocol, Size() is the total units of the values not yet handed to the deleter, PinnedSize() the units of pinned, not-removed entries, and Entries() the number of distinct keys that can be looked up.", "quantifier": "all call sequences, all keys/units, both eviction modes, any clock", "why_tests_cant": "unbounded histories", "anchors": ["utils/simple_lru_cache_inl.h: SimpleLRUCacheBase"]}
{"id": "C25", "title": "The cache never stays over capacity because of unpinned entries", "statement": "After any call sequence, if Size() exceeds MaxSize() then every entry is pinned (or already removed and awaiting release); in particular with no outstanding pins Size() <= MaxSize().", "quantifier": "all call sequences", "why_tests_cant": "unbounded histories", "anchors": ["utils/simple_lru_cache_inl.h: GarbageCollect", "utils/simple_lru_cache_inl.h: ReleaseWithOptions"]}
{"id": "C26", "title": "Each inserted value is handed to the deleter exactly once and never while pinned", "statement": "Over any history every inserted value is either still live in the cache or was passed to the deleter exactly once; a value is never deleted between a Lookup that returned it and the matching Release.", "quantifier": "all call sequences", "why_tests_cant": "temporal property of unbounded histories", "anchors": ["utils/simple_lru_cache_inl.h: Discard", "utils/simple_lru_cache_inl.h: Remove"]}
{"id": "C27", "title": "Lookup behaves like a map with eviction", "statement": "Lookup(k) returns either nothing or the value of the most recent Insert for k, and nothing if k was removed since.", "quantifier": "all call sequences", "why_tests_cant": "refinement to an abstract map", "anchors": ["utils/simple_lru_cache_inl.h: LookupWithOptions", "utils/simple_lru_cache_inl.h: InsertPinned", "utils/simple_lru_cache_inl.h: Remove"]}
{"id": "C28", "title": "The entries evicted for space are the least recently used (oldest in age mode)", "statement": "When inserting makes the cache overfull, the unpinned entries evicted form the tail of the recency (insertion) order: no evicted entry was used more recently than a kept unpinned one.", "quantifier": "all call sequences", "why_tests_cant": "unbounded histories", "anchors": ["utils/simple_lru_cache_inl.h: GarbageCollect"]}
{"id": "C29", "title": "Expired entries are never returned", "statement": "With a non-decreasing clock, Lookup never returns an entry whose last use (insertion in age mode) is more than the configured time ago, and RemoveExpiredEntries removes exactly those entries; in LRU mode this concerns entries on which no pin is held.", "quantifier": "all call sequences, all non-decreasing clocks", "why_tests_cant": "time-dependent unbounded histories", "anchors": ["utils/simple_lru_cache_inl.h: DiscardIdle", "utils/simple_lru_cache_inl.h: RemoveExpiredEntries"]}
{"id": "C30", "title": "No assertion of the cache fails under the pin protocol", "statement": "If every Release matches an earlier Lookup/InsertPinned of the same value and options are used uniformly, no call sequence fails an assertion or touches freed memory.", "quantifier": "all call sequences, non-decreasing clocks", "why_tests_cant": "absence of UB over unbounded histories", "anchors": ["utils/simple_lru_cache_inl.h"]}
{"id": "C31", "title": "Check only ever returns the latest response cached for the same signature", "statement": "If the check aggregator's Check returns OK, the response it returns is the argument of the most recent CacheResponse call for a request with the same signature.", "quantifier": "all histories of Check/CacheResponse/Flush/FlushAll, all clocks", "why_tests_cant": "unbounded histories", "anchors": ["src/check_aggregator_impl.cc: Check", "src/check_aggregator_impl.cc: CacheResponse"]}
{"id": "C32", "title": "Invalid, important and uncacheable checks bypass the cache", "statement": "Check with a wrong service name or no operation returns INVALID_ARGUMENT, with importance other than LOW or with caching disabled NOT_FOUND; in all these cases the cache is unchanged and nothing is flushed.", "quantifier": "all states, all requests", "why_tests_cant": "all states", "anchors": ["src/check_aggregator_impl.cc: Check"]}
{"id": "C33", "title": "A cached response is served only within the flush interval of a refresh", "statement": "If Check returns OK at time t then less than flush_interval before t the response was cached or some Check of the same signature returned NOT_FOUND (so a refresh was requested).", "quantifier": "all histories, non-decreasing clocks", "why_tests_cant": "unbounded timed histories", "anchors": ["src/check_aggregator_impl.cc: Check", "src/check_aggregator_impl.cc: ShouldFlush"]}
{"id": "C34", "title": "Refresh requests are rate limited", "statement": "While an entry stays cached, two Check calls of its signature that are told to go to the server are at least flush_interval apart.", "quantifier": "all histories, clocks", "why_tests_cant": "unbounded timed histories", "anchors": ["src/check_aggregator_impl.cc: Check"]}
{"id": "C35", "title": "A check response is not served beyond its expiration", "statement": "No Check returns a response cached more than expiration_ms earlier. (False: expiration is idle-based, so a failing server plus steady traffic keeps a response alive for ever.)", "quantifier": "all histories", "why_tests_cant": "needs an unbounded adversarial history", "anchors": ["src/check_aggregator_impl.cc: Check", "include/aggregation_options.h"]}
{"id": "C36", "title": "Aggregated check data is flushed exactly once when its entry leaves the cache", "statement": "For every additive quantity of operations (log entries, delta totals), what was aggregated equals what was handed to the flush callback plus what is still cached, over any history; after FlushAll nothing is cached.", "quantifier": "all histories", "why_tests_cant": "conservation over unbounded histories", "anchors": ["src/check_aggregator_impl.cc: OnCacheEntryDelete", "src/check_aggregator_impl.cc: CacheElem::Aggregate"]}
{"id": "C37", "title": "The check cache holds at most num_entries responses, one per signature", "statement": "After every call the number of cached responses is at most num_entries and signatures are distinct.", "quantifier": "all histories", "why_tests_cant": "unbounded histories", "anchors": ["src/check_aggregator_impl.cc"]}
{"id": "C38", "title": "Reported operations are neither lost nor duplicated", "statement": "Over any history, for every additive quantity (log entries as a multiset in order per signature, delta totals), accepted operations equal flushed operations plus cached ones; after FlushAll everything accepted has been flushed exactly once.", "quantifier": "all histories of Report/Flush/FlushAll, all clocks and capacities", "why_tests_cant": "conservation over unbounded histories", "anchors": ["src/report_aggregator_impl.cc: Report", "src/report_aggregator_impl.cc: OnCacheEntryDelete"]}
{"id": "C39", "title": "Flushed report requests are well formed and bounded", "statement": "Every request passed to the flush callback carries the configured service name and config id and between 1 and 10 operations.", "quantifier": "all histories", "why_tests_cant": "all batches", "anchors": ["src/report_aggregator_impl.cc: MergeItem", "src/cache_removed_items_handler.h: StackBuffer::Add"]}
{"id": "C40", "title": "A report with a non-LOW operation is passed through whole", "statement": "Report returns NOT_FOUND and leaves the cache unchanged iff the service name matches and some operation has importance other than LOW or caching is disabled; wrong service name gives INVALID_ARGUMENT.", "quantifier": "all states, all requests", "why_tests_cant": "all requests", "anchors": ["src/report_aggregator_impl.cc: Report", "src/report_aggregator_impl.cc: HasHighImportantOperation"]}
{"id": "C41", "title": "Only operations with equal signature are merged", "statement": "Every flushed operation is the aggregate of a non-empty list of accepted operations that all have the same signature, taken in arrival order, and every accepted operation belongs to exactly one such list.", "quantifier": "all histories", "why_tests_cant": "partition of unbounded histories", "anchors": ["src/report_aggregator_impl.cc: Report"]}
{"id": "C42", "title": "Cached operations stay below the log entry limit", "statement": "After every Report, a cached operation that was merged at least once holds fewer than 100 log entries; a merged operation reaching 100 entries is flushed by that same call.", "quantifier": "all histories", "why_tests_cant": "unbounded histories", "anchors": ["src/report_aggregator_impl.cc: Report", "src/operation_aggregator.cc: TooBig"]}
{"id": "C43", "title": "Flush sends everything older than the flush interval", "statement": "With a non-decreasing clock, after Flush no operation first cached more than flush_interval before remains cached, and nothing younger was flushed.", "quantifier": "all histories", "why_tests_cant": "timed histories", "anchors": ["src/report_aggregator_impl.cc: Flush"]}
{"id": "C44", "title": "Quota never blocks the caller", "statement": "With caching enabled and a valid request, Quota always returns OK immediately, with the empty (positive) response for an unknown signature and the last cached response otherwise.", "quantifier": "all histories; requests of cached signatures, or of any signature while the cache has room", "why_tests_cant": "unbounded histories", "anchors": ["src/quota_aggregator_impl.cc: Quota"]}
{"id": "C45", "title": "At most one allocation request per signature is in flight", "statement": "While an entry is cached, a request for its signature is handed to the flush callback only if a response for the previous one has been cached since.", "quantifier": "all histories", "why_tests_cant": "unbounded histories", "anchors": ["src/quota_aggregator_impl.cc: Quota", "src/quota_aggregator_impl.cc: OnCacheEntryDelete"]}
{"id": "C46", "title": "Granted quota tokens are accounted", "statement": "Tokens of requests answered positively from the cache are aggregated and handed to the flush callback exactly once, except those discarded by a negative response, by expiration or by FlushAll.", "quantifier": "all histories", "why_tests_cant": "conservation over unbounded histories", "anchors": ["src/quota_aggregator_impl.cc: Quota", "src/quota_aggregator_impl.h: set_quota_response"]}
{"id": "C47", "title": "A negative quota response is served until refreshed and never aggregates", "statement": "After a negative response is cached all requests of the signature get it, nothing is aggregated, and after the refresh interval exactly one NORMAL-mode request is sent.", "quantifier": "all histories", "why_tests_cant": "unbounded histories", "anchors": ["src/quota_aggregator_impl.cc: Quota"]}
{"id": "C48", "title": "Exceeding the quota cache capacity evicts an entry and returns", "statement": "Inserting a new signature into a full quota cache returns. (False: the deleter re-inserts the evicted entry, so the call recurses for ever.)", "quantifier": "all capacities, all full caches of unexpired entries", "why_tests_cant": "needs divergence reasoning", "anchors": ["src/quota_aggregator_impl.cc: OnCacheEntryDelete", "utils/simple_lru_cache_inl.h: GarbageCollect"]}
{"id": "C49", "title": "A failed allocation fails open and unblocks refreshing", "statement": "If the last completed allocation request of its signature failed, a quota call answered at once is granted; and after any completion, failed or not, the next quota call past the refresh interval makes the client send a new allocation request.", "quantifier": "all histories of calls, completions and timer events", "why_tests_cant": "unbounded asynchronous histories", "anchors": ["src/service_control_client_impl.cc: AllocateQuotaFlushCallback", "src/quota_aggregator_impl.cc: CacheResponse", "src/quota_aggregator_impl.cc: Quota"]}
{"id": "C50", "title": "Each call completes exactly once", "statement": "Every Check/Quota/Report call on the client has its done callback invoked exactly once: immediately on a local answer, or when its transport call completes.", "quantifier": "all histories of calls and completions", "why_tests_cant": "unbounded asynchronous histories", "anchors": ["src/service_control_client_impl.cc: Check", "src/service_control_client_impl.cc: Quota", "src/service_control_client_impl.cc: Report"]}
{"id": "C51", "title": "Statistics are exact", "statement": "GetStatistics equals: the number of calls, of transport sends made inside calls, of sends made by flush callbacks, and of operations sent.", "quantifier": "all histories", "why_tests_cant": "unbounded histories", "anchors": ["src/service_control_client_impl.cc: GetStatistics"]}
{"id": "C52", "title": "A failed check is never cached", "statement": "A transport completion with an error status does not change the check cache.", "quantifier": "all histories", "why_tests_cant": "unbounded histories", "anchors": ["src/service_control_client_impl.cc: Check"]}
{"id": "C53", "title": "Destroying the client flushes all pending report data and then disconnects", "statement": "The destructor sends every cached report operation, and afterwards no late completion reaches the transport again.", "quantifier": "all histories", "why_tests_cant": "unbounded histories", "anchors": ["src/service_control_client_impl.cc: ~ServiceControlClientImpl"]}
{"id": "C54", "title": "Late completions after destruction are safe", "statement": "A transport completion arriving after the client is destroyed does not touch freed memory. (True for Check; false for quota flush callbacks, which capture this.)", "quantifier": "all histories", "why_tests_cant": "needs life-time reasoning over histories", "anchors": ["src/service_control_client_impl.cc: AllocateQuotaFlushCallback"]}
{"id": "C55", "title": "The timer interval is the smallest enabled interval", "statement": "The periodic timer is created with the minimum of the intervals of the enabled aggregators and only when it is positive.", "quantifier": "all option values", "why_tests_cant": "all option combinations", "anchors": ["src/service_control_client_impl.cc: GetNextFlushInterval"]}
{"id": "C56", "title": "A missing transport is reported, never called", "statement": "A call with a null transport completes with INVALID_ARGUMENT and touches no cache; an empty default transport is never invoked. (The second half is false for flush callbacks.)", "quantifier": "all histories", "why_tests_cant": "all histories", "anchors": ["src/service_control_client_impl.cc"]}
{"id": "C57", "title": "Concurrent calls are linearizable", "statement": "For every interleaving of threads calling an aggregator, results and cache state equal those of executing the calls one at a time in the order in which they acquired the cache lock, and the items flushed by each call are exactly those its own critical section removed.", "quantifier": "all thread schedules", "why_tests_cant": "exponentially many interleavings", "anchors": ["src/cache_removed_items_handler.h: StackBuffer", "src/cache_removed_items_handler.h: Swapper"]}
{"id": "C58", "title": "No deadlock and no callback under the cache lock", "statement": "If flush callbacks do not re-enter the aggregator, no reachable state is deadlocked, and the flush callback is never invoked while the invoking thread holds the cache lock.", "quantifier": "all thread schedules", "why_tests_cant": "exponentially many interleavings", "anchors": ["src/cache_removed_items_handler.h"]}
{"id": "C59", "title": "A flush callback may complete synchronously", "statement": "A quota transport that completes in place is safe. (False: its completion can flush another item while the callback mutex is held, a self-deadlock.)", "quantifier": "all histories", "why_tests_cant": "needs lock-level reasoning", "anchors": ["src/cache_removed_items_handler.h: FlushOut", "src/service_control_client_impl.cc: AllocateQuotaFlushCallback"]}
{"id": "C60", "title": "MD5 hashing depends only on the concatenation of the updates; DebugString is injective", "statement": "Any split of the same bytes over Update calls gives the same digest, Digest is idempotent, and DebugString renders distinct digests differently.", "quantifier": "all byte strings and splits", "why_tests_cant": "all splits", "anchors": ["utils/md5.cc"]}
{"id": "C61", "title": "The sample transport maps HTTP errors to the documented statuses", "statement": "ConvertHttpCodeToStatus maps 400,401,403,404,409,416,429,499,501,503,504 to their specific codes and SendHttp reports a failed transfer. (False: missing breaks and a shadowed variable.)", "quantifier": "all HTTP codes", "why_tests_cant": "whole domain of codes", "anchors": ["sample/transport/http_transport.cc"]}
{"id": "C62", "title": "Aggregated distribution metrics describe all the samples", "statement": "Aggregating operations whose metric values are distributions of one layout yields one distribution describing all samples of all operations (exact arithmetic).", "quantifier": "all sequences of operations", "why_tests_cant": "all sequences and sample lists", "anchors": ["src/operation_aggregator.cc: MergeDeltaMetricValue", "utils/distribution_helper.cc: Merge"]}
{"id": "C63", "title": "Aggregated double metrics are the sum in arrival order", "statement": "Aggregating operations whose metric values are doubles yields the values added from first to last, one value per label signature.", "quantifier": "all sequences of operations, all double arithmetics", "why_tests_cant": "all sequences", "anchors": ["src/operation_aggregator.cc: MergeDeltaMetricValue"]}
{"id": "C64", "title": "Report aggregator calls always return", "statement": "With assertions compiled out, or with a clock that does not go backwards, Flush and FlushAll always return normally, and Report returns normally unless adding two integers of the caller's data overflows.", "quantifier": "all histories, all configurations", "why_tests_cant": "absence of undefined behaviour over all histories", "anchors": ["src/report_aggregator_impl.cc", "utils/simple_lru_cache_inl.h"]}
{"id": "C65", "title": "The report cache holds at most num_entries operations", "statement": "After every call on a report aggregator with caching enabled the number of cached operations is at most num_entries.", "quantifier": "all histories, all configurations", "why_tests_cant": "all histories", "anchors": ["src/report_aggregator_impl.cc", "utils/simple_lru_cache_inl.h"]}
{"id": "C66", "title": "A cached check response stays available", "statement": "A response stored with CacheResponse is cached; while its signature is cached, was used within the expiration time, and was stored or refreshed within the flush interval, Check returns it; a signature leaves the cache only by FlushAll, by idling beyond the expiration, or because a response for a new signature was stored in a full cache all of whose remaining signatures were used no earlier.", "quantifier": "all histories, clocks and configurations", "why_tests_cant": "unbounded histories", "anchors": ["src/check_aggregator_impl.cc: Check", "src/check_aggregator_impl.cc: CacheResponse", "utils/simple_lru_cache_inl.h: GarbageCollect"]}
{"id": "C67", "title": "A check is counted once", "statement": "A check that is told NOT_FOUND, so that its caller sends it, is not also part of what the aggregator flushes. (False: a check told to refresh a cached positive response is both; a check that finds nothing cached is not.)", "quantifier": "all histories", "why_tests_cant": "unbounded histories", "anchors": ["src/check_aggregator_impl.cc: Check"]}
{"id": "C68", "title": "Check aggregator calls always return", "statement": "With assertions compiled out, or with a clock that does not go backwards, CacheResponse, Flush and FlushAll always return normally, and Check returns normally unless adding two integers of the caller's data overflows.", "quantifier": "all histories, all configurations", "why_tests_cant": "absence of undefined behaviour over all histories", "anchors": ["src/check_aggregator_impl.cc", "utils/simple_lru_cache_inl.h"]}
{"id": "C69", "title": "Check options always expire later than they refresh", "statement": "Constructing the check options keeps cache size and flush interval, and yields an expiration larger than the flush interval, equal to the requested one when that is larger. (Undefined for the largest int flush interval: signed overflow.)", "quantifier": "all option values", "why_tests_cant": "whole domain of values", "anchors": ["include/aggregation_options.h: CheckAggregationOptions"]}
{"id": "C70", "title": "A quota entry stays cached until the expiration interval after its last allocation request", "statement": "Unless FlushAll was called, a call drops the quota entry of a signature only if at least the expiration interval has passed since an allocation request was last handed to the flush callback for it.", "quantifier": "all histories, all clocks", "why_tests_cant": "unbounded histories with arbitrary timing", "anchors": ["src/quota_aggregator_impl.cc: OnCacheEntryDelete", "src/quota_aggregator_impl.cc: ShouldDrop"]}
{"id": "C71", "title": "Allocation requests of a signature are at least a refresh interval apart", "statement": "While its entry is cached, allocation requests of one signature are handed to the flush callback at least the refresh interval apart. (False when operations are pending: the idle put-back sends them regardless of the last request; proved when none are pending.)", "quantifier": "all histories, all clocks", "why_tests_cant": "unbounded histories with arbitrary timing", "anchors": ["src/quota_aggregator_impl.cc: Quota", "src/quota_aggregator_impl.cc: OnCacheEntryDelete", "src/quota_aggregator_impl.cc: ShouldRefresh"]}
{"id": "C72", "title": "No more tokens are requested from the server than the callers asked for", "statement": "The tokens in the requests handed to the flush callback for a signature never exceed the tokens of the Quota calls made for it. (False: a refresh without pending operations re-sends the request that made the entry, charging its tokens again.)", "quantifier": "all histories", "why_tests_cant": "conservation over unbounded histories", "anchors": ["src/quota_aggregator_impl.cc: Quota", "src/quota_aggregator_impl.h: ReturnAllocateQuotaRequest"]}
{"id": "C73", "title": "FlushAll leaves a usable quota aggregator", "statement": "After FlushAll the aggregator behaves like a new one. (False: the flag set by FlushAll is never reset, so idle entries are dropped with their pending tokens instead of being refreshed.)", "quantifier": "all histories", "why_tests_cant": "needs relating two unbounded histories", "anchors": ["src/quota_aggregator_impl.cc: FlushAll", "src/quota_aggregator_impl.cc: OnCacheEntryDelete"]}
{"id": "C74", "title": "The client leaks nothing", "statement": "Every object the client allocates belongs to exactly one outstanding transport call and is freed when that call completes, so nothing is left when none is outstanding.", "quantifier": "all histories of calls, completions, timer events and destruction", "why_tests_cant": "unbounded asynchronous histories", "anchors": ["src/service_control_client_impl.cc: Check", "src/service_control_client_impl.cc: Quota", "src/service_control_client_impl.cc: CheckFlushCallback", "src/service_control_client_impl.cc: ReportFlushCallback", "src/service_control_client_impl.cc: AllocateQuotaFlushCallback"]}
{"id": "C75", "title": "A check answered at once gets the latest response", "statement": "A Check call the client answers with OK without calling a transport gets the response delivered last, without an error, by a transport for an earlier Check call of the same signature.", "quantifier": "all histories", "why_tests_cant": "unbounded asynchronous histories", "anchors": ["src/service_control_client_impl.cc: Check", "src/check_aggregator_impl.cc: Check"]}
{"id": "C76", "title": "A quota call answered at once gets the latest decision", "statement": "A Quota call the client answers with OK without calling a transport gets the decision of the allocation request of its signature that completed last before the call, a failed one counting as a grant, or a grant.", "quantifier": "all histories", "why_tests_cant": "unbounded asynchronous histories", "anchors": ["src/service_control_client_impl.cc: Quota", "src/quota_aggregator_impl.cc: Quota"]}
{"id": "C77", "title": "Client operations return", "statement": "With sane clocks, default transports, and transports that complete later, every operation except Quota that keeps to the contract of the client returns normally, unless adding two integers of the caller's data overflows or a quota request of a flush completes after the destruction.", "quantifier": "all histories", "why_tests_cant": "absence of undefined behaviour over all histories", "anchors": ["src/service_control_client_impl.cc"]}
{"id": "C78", "title": "Under every schedule all calls return", "statement": "If flush callbacks do not re-enter the aggregator, then once threads stop making new calls every schedule is finite, and when no thread can take another step every call made has returned, except where a call runs into the undefined behaviour it also has when made alone.", "quantifier": "all thread schedules, any number of threads and calls", "why_tests_cant": "exponentially many interleavings, termination", "anchors": ["src/cache_removed_items_handler.h", "src/report_aggregator_impl.cc", "src/check_aggregator_impl.cc", "src/quota_aggregator_impl.cc"]}
{"id": "C79", "title": "The sample transport sends the whole request", "statement": "The body the server receives for Check and Report is the serialized request. (False: libcurl is given no length, so the body ends at the first zero byte, which e.g. an integer metric value 0 or a double value contains.)", "quantifier": "all requests", "why_tests_cant": "whole domain of requests", "anchors": ["sample/transport/http_transport.cc: SendHttp"]}
{"id": "C80", "title": "The cache's queries tell the truth", "statement": "StillInUse(k, value) holds exactly if the value is in the cache under k or pinned, StillInUse(k) if that holds of some value; DeferredEntries and DeferredSize count and measure the values that are pinned but no longer in the cache; GetLastUseTime and GetInsertionTime return the time of the last use or insertion, or -1.", "quantifier": "all histories within the pin protocol, both eviction modes", "why_tests_cant": "unbounded histories", "anchors": ["utils/simple_lru_cache_inl.h: StillInUse", "utils/simple_lru_cache_inl.h: InDeferredTable", "utils/simple_lru_cache_inl.h: CountDeferredEntries", "utils/simple_lru_cache_inl.h: GetLastUseTime", "utils/simple_lru_cache_inl.h: GetInsertionTime"]}
{"id": "C81", "title": "Removal calls remove and delete exactly what they say", "statement": "Remove(k) leaves nothing under k, RemoveAll and Clear leave nothing, RemoveUnpinned leaves exactly the pinned entries, and all other entries stay; exactly the removed values that nobody holds a pin on are handed to the deleter by the call, once.", "quantifier": "all histories within the pin protocol, both eviction modes", "why_tests_cant": "unbounded histories, interplay with pins", "anchors": ["utils/simple_lru_cache_inl.h: Remove", "utils/simple_lru_cache_inl.h: RemoveAll", "utils/simple_lru_cache_inl.h: RemoveUnpinned", "utils/simple_lru_cache_inl.h: Clear"]}
{"id": "C82", "title": "The eviction mode can be changed", "statement": "Changing between idle-based and age-based eviction (possible whenever no time limit was set before or none is set from now on), and setting the time limit anew, leaves a cache that works: from then on it behaves like a cache of the new configuration into which the entries it holds were inserted in their present order at their times of last use. While a limit is set, setting one in the other mode is refused and changes nothing. (False with pinned entries if the mode changes: they are linked twice or never evicted. Proved whenever no pins are held. Setting the limit anew in the same mode is proved with pinned entries too; in age mode only if no pinned entry had passed the old limit and not the new one.)", "quantifier": "all histories within the pin protocol", "why_tests_cant": "unbounded histories", "anchors": ["utils/simple_lru_cache_inl.h: SetTimeout", "utils/simple_lru_cache_inl.h: ReleaseWithOptions"]}
{"id": "C83", "title": "The cache's linked lists stay well formed and no element leaks", "statement": "No call uses a null or deleted element, deletes an element twice or loops for ever. After every call the eviction list visits, forwards and backwards, each unpinned entry (in age mode: each entry) exactly once, most recently used first; for each key the list of removed entries that are still pinned visits exactly those; every value inserted and not yet handed to the deleter is held by exactly one element, and the queries that walk the lists answer accordingly.", "quantifier": "all histories within the pin protocol, both eviction modes, debug and release builds", "why_tests_cant": "unbounded histories; memory layout after every interleaving of insertions, pins, removals and evictions", "anchors": ["utils/simple_lru_cache_inl.h: Link", "utils/simple_lru_cache_inl.h: Unlink", "utils/simple_lru_cache_inl.h: Remove", "utils/simple_lru_cache_inl.h: ReleaseWithOptions", "utils/simple_lru_cache_inl.h: InsertPinned", "utils/simple_lru_cache_inl.h: UpdateSize", "utils/simple_lru_cache_inl.h: GarbageCollect", "utils/simple_lru_cache_inl.h: DiscardIdle", "utils/simple_lru_cache_inl.h: Clear"]}
{"id": "C84", "title": "The timer sends aged reports", "statement": "A tick of the flush timer sends every accepted report operation that has been in the cache for longer than the flush interval: of the operations accepted up to any earlier moment whose clock readings are all older than that, each is part of exactly one operation given to the transport by then, in order of acceptance per signature.", "quantifier": "all histories of calls, completions and ticks up to the tick", "why_tests_cant": "unbounded asynchronous histories and clocks", "anchors": ["src/service_control_client_impl.cc: Flush", "src/report_aggregator_impl.cc: Flush", "src/service_control_client_impl.cc: ReportFlushCallback"]}
{"id": "C85", "title": "The timer removes expired checks and sends what was aggregated", "statement": "A tick of the flush timer (and Flush on the check aggregator) removes exactly the cached checks that no call concerned within the expiration interval; what was aggregated in them is, like everything aggregated, part of exactly one check given to the transport, and only what stays cached is still pending.", "quantifier": "all histories of calls, completions and ticks up to the tick", "why_tests_cant": "unbounded asynchronous histories and clocks", "anchors": ["src/service_control_client_impl.cc: Flush", "src/check_aggregator_impl.cc: Flush", "src/check_aggregator_impl.cc: OnCacheEntryDelete", "src/service_control_client_impl.cc: CheckFlushCallback"]}
{"id": "C86", "title": "The timer sends aged quota requests", "statement": "Tokens granted from the cache for a signature that awaits no server response are, by the first Flush (or tick of the flush timer) that comes later than the refresh interval, sent to the server or discarded by one of the causes of C46; all that is held afterwards was granted later.", "quantifier": "all histories of calls, completions and ticks up to the tick, without signature collisions", "why_tests_cant": "unbounded asynchronous histories and clocks", "anchors": ["src/service_control_client_impl.cc: Flush", "src/quota_aggregator_impl.cc: Flush", "src/quota_aggregator_impl.cc: OnCacheEntryDelete", "src/service_control_client_impl.cc: AllocateQuotaFlushCallback"]}
{"id": "C87", "title": "Under every schedule each call is answered exactly once", "statement": "However threads, completions, the timer and the destruction interleave, also when transports complete in place and callbacks call the client again: the done callback of a call is invoked at most once, never while its transport call is outstanding, and with what that transport call delivered; at most one transport call is made for it, with its request. When no thread works on the call, it has been answered or its transport call is outstanding; when no thread is inside the client and nothing is outstanding, every call has been answered.", "quantifier": "all schedules of any number of threads, any number of calls, transports and done callbacks that run for any time, complete any transport call at any time and call the client again, timer events and destruction at any moment the contract allows", "why_tests_cant": "exponentially many interleavings", "anchors": ["src/service_control_client_impl.cc: Check", "src/service_control_client_impl.cc: Quota", "src/service_control_client_impl.cc: Report"]}
{"id": "C88", "title": "Statistics are right once the client is quiet, and never ahead", "statement": "Under every schedule no counter of GetStatistics exceeds the number of the events it counts, and whenever no thread is inside the client all counters are exact.", "quantifier": "all schedules of any number of threads, any number of calls, transports and done callbacks that run for any time, complete any transport call at any time and call the client again, timer events and destruction at any moment the contract allows", "why_tests_cant": "exponentially many interleavings", "anchors": ["src/service_control_client_impl.cc: GetStatistics"]}
{"id": "C89", "title": "No use after free and no leak under every schedule", "statement": "Under every schedule no thread uses freed memory, deletes an object twice, uses the destroyed client, calls an empty function, or sets a promise twice; when no thread is inside the client, every allocated object belongs to one outstanding transport call. (False: the completion of a quota request sent by a flush that starts, or is still running, after the destruction uses the destroyed client; a flush calls an empty default transport. Proved with these exceptions.)", "quantifier": "all schedules of any number of threads, any number of calls, transports and done callbacks that run for any time, complete any transport call at any time and call the client again, timer events and destruction at any moment the contract allows", "why_tests_cant": "memory safety over all interleavings", "anchors": ["src/service_control_client_impl.cc: ~ServiceControlClientImpl", "src/service_control_client_impl.cc: AllocateQuotaFlushCallback", "src/service_control_client_impl.cc: Check", "src/service_control_client_impl.cc: Quota", "src/cache_removed_items_handler.h"]}
{"id": "C90", "title": "Calls without a done callback return the status of their own call", "statement": "A Check, Quota or Report without a done callback returns once, and returns the status with which its own call was completed; its thread is blocked only until that completion.", "quantifier": "all schedules of any number of threads, any number of calls, transports and done callbacks that run for any time, complete any transport call at any time and call the client again, timer events and destruction at any moment the contract allows", "why_tests_cant": "exponentially many interleavings", "anchors": ["src/service_control_client_impl.cc: Check", "src/service_control_client_impl.cc: Quota", "src/service_control_client_impl.cc: Report"]}
{"id": "C91", "title": "No accepted report is lost under every schedule", "statement": "At every moment the log entries and the delta metric totals of reports answered OK at once are those handed to the transport by flushes, those a thread is carrying to the flush callback, and those still cached. Once the client is destroyed everything accepted was handed to the transport. (False if stopping the timer does not wait for the function it is calling: a report that function carries is given to nobody. Proved for timers that wait.)", "quantifier": "all schedules of any number of threads, any number of calls, transports and done callbacks that run for any time, complete any transport call at any time and call the client again, timer events and destruction at any moment the contract allows", "why_tests_cant": "conservation over all interleavings", "anchors": ["src/service_control_client_impl.cc: ~ServiceControlClientImpl", "src/service_control_client_impl.cc: Report", "src/cache_removed_items_handler.h: FlushOut", "src/report_aggregator_impl.cc"]}
{"id": "C92", "title": "No deadlock under every schedule", "statement": "Threads inside the client that are left alone stop after finitely many steps, and then each of them is waiting, in a call without a done callback, for a transport call that is outstanding; so when nothing is outstanding all threads have left the client. (False: the transport called by a flush callback runs under a lock of the client, and if it calls the client its thread can wait for that lock forever. Proved when such transports do nothing with the client but complete flushed checks and reports.)", "quantifier": "all schedules of any number of threads, any number of calls, transports and done callbacks that run for any time, complete any transport call at any time and call the client again, timer events and destruction at any moment the contract allows", "why_tests_cant": "exponentially many interleavings; a deadlock is an absence of events", "anchors": ["src/cache_removed_items_handler.h: FlushOut", "src/cache_removed_items_handler.h: SetFlushCallback", "src/service_control_client_impl.cc: ~ServiceControlClientImpl", "src/service_control_client_impl.cc: Check", "src/service_control_client_impl.cc: Quota", "src/service_control_client_impl.cc: Report"]}
{"id": "C93", "title": "Nothing happens after the destruction except late completions", "statement": "Under every schedule, once the destructor has returned no transport is called, no call is made, the timer does not fire, and the only done callbacks invoked are those of calls whose transport call completes.", "quantifier": "all schedules of any number of threads, any number of calls, transports and done callbacks that run for any time, complete any transport call at any time and call the client again, timer events and destruction at any moment the contract allows", "why_tests_cant": "exponentially many interleavings", "anchors": ["src/service_control_client_impl.cc: ~ServiceControlClientImpl", "src/cache_removed_items_handler.h: SetFlushCallback"]}
{"id": "C94", "title": "Under every schedule answers at once are never invented", "statement": "A Check answered OK without calling a transport gets a response that a transport delivered before, without an error, for a Check of the same signature; a Quota answered OK without a transport gets a decision delivered before for its signature, or a grant.", "quantifier": "all schedules of any number of threads, any number of calls, transports and done callbacks that run for any time, complete any transport call at any time and call the client again, timer events and destruction at any moment the contract allows", "why_tests_cant": "exponentially many interleavings", "anchors": ["src/service_control_client_impl.cc: Check", "src/service_control_client_impl.cc: Quota", "src/check_aggregator_impl.cc: Check", "src/quota_aggregator_impl.cc: Quota"]}
{"id": "C95", "title": "Which calls reach a transport, under every schedule", "statement": "A call for another service, without an operation, or made with no transport is answered INVALID_ARGUMENT at once. Of the others, a call whose cache is off, or that has an operation not of low importance, is given to a transport exactly once and never answered without one; a Quota or a low importance Report whose cache is on is answered OK at once and no transport is called for it. A call answered OK without a transport is always one the cache may answer.", "quantifier": "all schedules of any number of threads, any number of calls, transports and done callbacks that run for any time, complete any transport call at any time and call the client again, timer events and destruction at any moment the contract allows", "why_tests_cant": "exponentially many interleavings", "anchors": ["src/service_control_client_impl.cc: Check", "src/service_control_client_impl.cc: Quota", "src/service_control_client_impl.cc: Report", "src/check_aggregator_impl.cc: Check", "src/quota_aggregator_impl.cc: Quota", "src/report_aggregator_impl.cc: Report"]}
{"id": "C96", "title": "High importance operations are sent directly without any caching", "statement": "As documented for Check and Report, an operation of high importance is sent directly to the server without any caching: it is given to a transport as it is, is not answered from a cache, and leaves nothing behind in a cache. (False: the response to a high importance Check is kept and answers later low importance Checks of the same signature. Proved without the last part.)", "quantifier": "all schedules of any number of threads, any number of calls, transports and done callbacks that run for any time, complete any transport call at any time and call the client again, timer events and destruction at any moment the contract allows", "why_tests_cant": "exponentially many interleavings", "anchors": ["include/service_control_client.h: Check", "include/service_control_client.h: Report", "src/service_control_client_impl.cc: Check", "src/check_aggregator_impl.cc: CacheResponse"]}
{"id": "C97", "title": "The timer sends what is old, whatever other threads do", "statement": "With a clock that does not go backwards and a non-negative flush interval, once the timer has called the client's function and that function has returned, every report operation that had been accepted for longer than the flush interval when the timer called is part of exactly one operation that has been given to the transport, is at this moment being passed to the flush callback by some thread, or was passed on after the destructor had unset the callback; in particular its log entries are there.", "quantifier": "all schedules of any number of threads, any number of calls, transports and done callbacks that run for any time, complete any transport call at any time and call the client again, timer events and destruction at any moment the contract allows; all moments of acceptance", "why_tests_cant": "exponentially many interleavings of the timer's function with calls and completions", "anchors": ["src/service_control_client_impl.cc: ServiceControlClientImpl", "src/report_aggregator_impl.cc: Flush", "utils/simple_lru_cache_inl.h: RemoveExpiredEntries", "src/cache_removed_items_handler.h: FlushOut"]}
{"id": "C98", "title": "What was held for checks answered from the cache is not lost under every schedule", "statement": "At every moment the log entries and the totals of integer delta metrics in the checks sent by flushes, in the checks a thread is passing to the flush callback or passed on after the callback was unset, and in the operations still cached, are together those of the checks answered from the cache with a positive response, and possibly of some checks given to a transport, whose signature a transport has answered positively. Once the client is destroyed all of this was sent. (False: when the completion of a check removes another entry from the cache while a second thread destroys the client, the held operations of that entry are given to nobody, even if stopping the timer waits. Proved when no thread was passing a check to the flush callback then.)", "quantifier": "all schedules of any number of threads, any number of calls, transports and done callbacks that run for any time, complete any transport call at any time and call the client again, timer events and destruction at any moment the contract allows", "why_tests_cant": "conservation over all interleavings", "anchors": ["src/service_control_client_impl.cc: ~ServiceControlClientImpl", "src/service_control_client_impl.cc: Check", "src/check_aggregator_impl.cc: Check", "src/check_aggregator_impl.cc: CacheResponse", "src/cache_removed_items_handler.h: FlushOut"]}
{"id": "C99", "title": "A time limit in milliseconds is kept to the microsecond", "statement": "A flush interval or expiration time of a non-negative number of milliseconds that fits an int becomes that number of microseconds in the cache. A negative or infinite one means no limit. Every number of seconds is converted without undefined behaviour, and a longer one is never converted to a shorter limit. (False: 1001 ms becomes 1000999 microseconds, and NaN seconds is converted to an integer, which is undefined. Proved: at most one microsecond is lost, and all numbers except NaN are converted.)", "quantifier": "all 2^32 numbers of milliseconds; all doubles", "why_tests_cant": "rounding errors depend on the number; tests use a few round ones", "anchors": ["utils/simple_lru_cache_inl.h: SetTimeout", "src/report_aggregator_impl.cc: ReportAggregatorImpl", "src/check_aggregator_impl.cc: CheckAggregatorImpl", "src/quota_aggregator_impl.cc: QuotaAggregatorImpl"]}
{"id": "C100", "title": "With IEEE doubles AddSample is defined and stays within the buckets", "statement": "For a linear layout with a positive finite width and a finite offset, for an exponential layout with a positive finite scale, and for explicit bounds, AddSample of any double, including infinities, increments one of the buckets and does nothing undefined; with explicit bounds it is the bucket that contains the sample. (False for linear layouts: if the distance of the sample to the offset overflows, infinity is converted to int; a width of NaN is accepted and leads to the same. False for exponential layouts: the sample infinity, or a large sample divided by a scale below one, does the same, and with a growth factor next to one the sample 2 is converted to an int out of range. Proved when the distance or the quotient does not overflow and the logarithm of the growth factor is at least 2^-20.)", "quantifier": "every layout, every double", "why_tests_cant": "the whole range of doubles with rounding at every operation", "anchors": ["utils/distribution_helper.cc: UpdateLinearBucketCount", "utils/distribution_helper.cc: UpdateExplicitBucketCount", "utils/distribution_helper.cc: UpdateExponentialBucketCount", "utils/distribution_helper.cc: InitLinear", "utils/distribution_helper.cc: InitExplicit", "utils/distribution_helper.cc: InitExponential"]}
{"id": "C101", "title": "With IEEE doubles a sample is counted in the right linear bucket", "statement": "With a linear layout the bucket of a sample is the one whose range, computed from the width and the offset exactly, contains it. (False: with width 0.1 the sample 0.5 is counted one bucket too high; with offset 2^60 and width 1 a sample at the lower end is counted in the overflow bucket. Proved: it is at most one bucket off if the offset is at most 2^50 widths.)", "quantifier": "every linear layout, every finite double", "why_tests_cant": "rounding at every operation", "anchors": ["utils/distribution_helper.cc: UpdateLinearBucketCount"]}
{"id": "C102", "title": "With IEEE doubles a larger sample never lands in a lower bucket", "statement": "For linear, exponential and explicit layouts, if one sample is at most another, its bucket is at most the other's, in spite of rounding.", "quantifier": "every layout, every pair of doubles; for exponential layouts every log2 that is monotone, zero at one and positive at the growth factor", "why_tests_cant": "pairs of values one rounding step apart", "anchors": ["utils/distribution_helper.cc: UpdateLinearBucketCount", "utils/distribution_helper.cc: UpdateExponentialBucketCount", "utils/distribution_helper.cc: UpdateExplicitBucketCount"]}
{"id": "C103", "title": "With IEEE doubles the mean stays close to the mean of the samples", "statement": "However a distribution is filled with n samples of at most M in absolute value by AddSample and Merge, starting with empty ones, the mean differs from the mean of the samples by at most 4(n+1)(M 2^-53 + 2^-1074), minimum and maximum are exactly those of the samples, and the mean lies between them. (The last part is false: three samples of 0.1 have a mean above their maximum. Proved without it for n up to 2^40 and M up to 2^900.)", "quantifier": "every tree of AddSample and Merge calls, every list of samples", "why_tests_cant": "rounding errors accumulate over unbounded lists", "anchors": ["utils/distribution_helper.cc: UpdateGeneralStatictics", "utils/distribution_helper.cc: Merge"]}
{"id": "C104", "title": "With IEEE doubles the sum of squared deviation is never negative", "statement": "However a distribution is filled by AddSample and combined by Merge, its sum of squared deviation is never negative. (False when the sum of the samples overflows, and for distributions a caller filled in otherwise. Proved for up to 2^53 samples when the mean is finite.)", "quantifier": "every tree of AddSample and Merge calls, every double", "why_tests_cant": "the increment is a product of two rounded differences; its sign depends on the last bit", "anchors": ["utils/distribution_helper.cc: UpdateGeneralStatictics", "utils/distribution_helper.cc: Merge"]}
{"id": "C105", "title": "Cached data is kept for as many milliseconds as configured", "statement": "With a clock that does not go backwards, Flush sends the cached report operations whose first part was reported at least the flush interval in milliseconds before, and keeps those for which this is at most that long ago; likewise it removes cached check responses not used for at least the expiration time and keeps those used within it. What the timer sends (C97) holds with the flush interval in milliseconds.", "quantifier": "all sequences of calls, all clocks, all intervals that fit an int", "why_tests_cant": "conversion through double with rounding, for each of 2^31 intervals", "anchors": ["src/report_aggregator_impl.cc: Flush", "src/check_aggregator_impl.cc: Flush", "utils/simple_lru_cache_inl.h: SetTimeout", "utils/simple_lru_cache_inl.h: RemoveExpiredEntries"]}
{"id": "C106", "title": "Quota tokens granted from the cache are accounted for under every schedule", "statement": "At every moment, for every signature and every metric, the tokens of the Quota calls answered positively from the cache, and those of the requests the cache sent again without having granted anything new, are together those of the requests given to transports, of the requests a thread is passing to the flush callback or passed on after the callback was unset, those still held, and those discarded. Requests are sent again only for a Quota call made before. Tokens are discarded at most once per negative response and once per entry of the cache. (It is not so that all granted tokens are given to a transport if no response is negative: the destructor discards what the cache holds, and a sum taken out of the cache by a completion is given to nobody when the client is destroyed meanwhile.)", "quantifier": "all schedules of any number of threads, any number of calls, transports and done callbacks that run for any time, complete any transport call at any time and call the client again, timer events and destruction at any moment the contract allows; all signatures and metrics with integer amounts", "why_tests_cant": "conservation over all interleavings", "anchors": ["src/service_control_client_impl.cc: Quota", "src/service_control_client_impl.cc: ~ServiceControlClientImpl", "src/quota_aggregator_impl.cc: Quota", "src/quota_aggregator_impl.cc: CacheResponse", "src/quota_aggregator_impl.cc: OnCacheEntryDelete", "src/cache_removed_items_handler.h: FlushOut"]}
{"id": "C107", "title": "No cached object is used after it was deleted, deleted twice or leaked", "statement": "The aggregators keep their cached responses, operations and quota sums as objects on the heap, which the cache points to and the deleter deletes, flushes or puts back. No call uses an object after its deletion or deletes one twice. Between calls the objects are exactly those the entries of the cache point to, one each, and FlushAll, hence the destructor, leaves none. What callers see, and what the objects hold, is what it would be if the cache held the objects themselves.", "quantifier": "all sequences of Check, Report, Quota, CacheResponse, Flush and FlushAll calls on each aggregator, all clocks and cache sizes; for Quota calls: room in the cache (C48), or that the call returns", "why_tests_cant": "unbounded histories; heap state after every interleaving of insertions, evictions, expiry and re-insertion", "anchors": ["src/check_aggregator_impl.cc: OnCacheEntryDelete", "src/check_aggregator_impl.cc: Check", "src/check_aggregator_impl.cc: CacheResponse", "src/report_aggregator_impl.cc: OnCacheEntryDelete", "src/report_aggregator_impl.cc: Report", "src/quota_aggregator_impl.cc: OnCacheEntryDelete", "src/quota_aggregator_impl.cc: Quota", "src/quota_aggregator_impl.cc: CacheResponse", "utils/simple_lru_cache_inl.h: Insert", "utils/simple_lru_cache_inl.h: RemoveElement"]}
{"id": "C108", "title": "The timer expires and sends idle checks, whatever other threads do", "statement": "With a clock that does not go backwards and a non-negative expiration time: if for longer than the expiration time no check of a signature was called and no transport completed one, and the timer has called the client's function after that and the function has returned, then no response is cached for the signature, and the operations of the checks answered from the cache for it are part of operations that have been given to the transport, are at this moment being passed to the flush callback by some thread, or were passed on after the destructor had unset the callback; in particular their log entries are there.", "quantifier": "all schedules of any number of threads, any number of calls, transports and done callbacks that run for any time, complete any transport call at any time and call the client again, timer events and destruction at any moment the contract allows; all signatures and idle periods", "why_tests_cant": "exponentially many interleavings of the timer's function with calls and completions", "anchors": ["src/service_control_client_impl.cc: ServiceControlClientImpl", "src/check_aggregator_impl.cc: Flush", "src/check_aggregator_impl.cc: OnCacheEntryDelete", "utils/simple_lru_cache_inl.h: RemoveExpiredEntries", "src/cache_removed_items_handler.h: FlushOut"]}
{"id": "C109", "title": "A check answered by a transport is answered from the cache, whatever other threads do", "statement": "With a cache that has room for the signatures of all checks a transport has answered OK, and a clock that does not go backwards: once the done callback of a check has been called with the OK answer of a transport, every check of low importance for the same service and of the same signature that is called afterwards, by any thread, is answered OK from the cache and no transport is called for it, as long as neither the flush interval nor the expiration time has passed since before that answer arrived and the destruction has not begun; other calls, completions and the timer's function running at the same time do not change this.", "quantifier": "all schedules of any number of threads, any number of calls, transports and done callbacks that run for any time, complete any transport call at any time and call the client again, timer events and destruction at any moment the contract allows; all requests, answers and clocks", "why_tests_cant": "exponentially many interleavings of the completion that fills the cache, the checks that read it and the timer that empties it", "anchors": ["src/service_control_client_impl.cc: Check", "src/service_control_client_impl.cc: ServiceControlClientImpl", "src/check_aggregator_impl.cc: Check", "src/check_aggregator_impl.cc: CacheResponse", "src/check_aggregator_impl.cc: Flush", "utils/simple_lru_cache_inl.h: RemoveExpiredEntries"]}
{"id": "C110", "title": "After the timer has run only recently granted quota waits in the cache, whatever other threads do", "statement": "With a clock that does not go backwards, a non-negative refresh interval and no two requests of different identity with one signature: if at some moment every quota request given to a transport for a signature has been answered and the answer has reached the cache, if no thread has such a request in its hands and none was dropped, and if the timer has called the client's function more than the refresh interval later and the function has returned, then the tokens the cache holds for the signature are a sum of operations that were granted after that moment: everything granted before has been handed on or discarded.", "quantifier": "all schedules of any number of threads, any number of calls, transports and done callbacks that run for any time, complete any transport call at any time and call the client again, timer events and destruction at any moment the contract allows; all signatures and clocks", "why_tests_cant": "exponentially many interleavings of the timer's function with calls and completions", "anchors": ["src/service_control_client_impl.cc: ServiceControlClientImpl", "src/quota_aggregator_impl.cc: Flush", "src/quota_aggregator_impl.cc: OnCacheEntryDelete", "src/quota_aggregator_impl.cc: CacheResponse", "src/cache_removed_items_handler.h: FlushOut"]}
{"id": "C111", "title": "Distributions with the same layout can be merged, with IEEE doubles", "statement": "Two distributions filled by AddSample and Merge, starting from the result of the same Init call, can always be merged, in either direction, unless a counter overflows; and whether two distributions can be merged does not depend on the direction. (False: InitExplicit accepts an infinite bound, but then even two equal distributions are refused; and layouts that differ by about one part in a hundred thousand are accepted in one direction only. Proved for layouts without infinities and NaN.)", "quantifier": "every tree of AddSample and Merge calls, every double as sample and in the layout", "why_tests_cant": "the comparison of layouts uses rounded products and differences; no test enumerates the doubles", "anchors": ["utils/distribution_helper.cc: Merge", "utils/distribution_helper.cc: BucketsApproximatelyEqual", "utils/distribution_helper.cc: IsCloseEnough", "utils/distribution_helper.cc: InitExplicit"]}
{"id": "C112", "title": "The caller's objects are not used after the call is over", "statement": "Once the done callback of a Check, Quota or Report call was invoked, and once a call without a done callback has returned, the client neither reads nor writes the request and response objects the caller gave it, and no transport that could write into the response holds it, whatever other threads do. (False: after a report was given to its transport the client reads the request again to count its operations, also when the transport has completed the call in place and the done callback has been invoked. Proved for everything else, and without exception for calls without a done callback.)", "quantifier": "every schedule of any number of threads, calls from callbacks, transports that complete in place or late, destruction of the client", "why_tests_cant": "a use after the callback only fails if the caller has released the object and the memory was reused; it depends on when the transport completes", "anchors": ["src/service_control_client_impl.cc: Check", "src/service_control_client_impl.cc: Quota", "src/service_control_client_impl.cc: Report", "include/service_control_client.h: Check"]}
{"id": "C113", "title": "What a transport is given lives until it completes the call", "statement": "From the moment a transport is called until it completes the call, the request and the response object it was given exist and belong to this call alone, whatever other threads do and also when the client is destroyed meanwhile. The response object of a Check or Quota call is the caller's. (False for the requests of checks and reports sent from the cache, which are gone when the flush is over, and of Report calls, which are the caller's and not copied: an asynchronous transport has to copy them before it returns. Proved for the requests of Check and Quota calls, of quota requests sent from the cache, and for all response objects the client allocates.)", "quantifier": "every schedule of any number of threads, transports that complete in place or late, destruction of the client", "why_tests_cant": "the test transports copy the request at once or complete in place; a dangling reference is not observed", "anchors": ["src/service_control_client_impl.cc: CheckFlushCallback", "src/service_control_client_impl.cc: ReportFlushCallback", "src/service_control_client_impl.cc: AllocateQuotaFlushCallback", "src/service_control_client_impl.cc: Check", "src/service_control_client_impl.cc: Quota", "src/service_control_client_impl.cc: Report", "include/service_control_client.h: TransportCheckFunc"]}
{"id": "C114", "title": "GetStatistics is right while other threads use the client", "statement": "The numbers GetStatistics returns are the values of all counters at one moment of the call. (False: the counters are read one after the other, so that it may report more checks sent for calls than calls made. Proved: every number lies between what its counter was when GetStatistics was called and when it returned, never exceeds the number of events of its kind, and all are exact if nothing happens meanwhile.)", "quantifier": "every schedule of any number of threads before and between the reads", "why_tests_cant": "depends on what other threads do between two reads", "anchors": ["src/service_control_client_impl.cc: GetStatistics"]}
{"id": "C115", "title": "With IEEE doubles the sum of squared deviation stays close to the exact one", "statement": "However a distribution is filled with n samples of at most M in absolute value by AddSample and Merge, starting with empty ones, its sum of squared deviation is finite and differs from that of the samples, computed exactly, by at most 128 n^2 (M^2 2^-53 + 2^-1074); and it is zero if and only if all samples are equal. (The last part is false: seven samples of 0.174 have a positive one, and three samples next to 1 that differ have the sum zero. The rest is proved for n up to 2^40 and M from 2^-1021 to 2^480.)", "quantifier": "every tree of AddSample and Merge calls, every list of samples", "why_tests_cant": "rounding errors of means and products accumulate over unbounded lists", "anchors": ["utils/distribution_helper.cc: UpdateGeneralStatictics", "utils/distribution_helper.cc: Merge"]}
{"id": "C116", "title": "Double totals survive the report cache except for rounding", "statement": "For a delta metric whose values are finite doubles, the values of the operations flushed, together with those still cached, add up to the total of the values of the accepted reports, up to an error of 2 n S 2^-53 for n values whose absolute values add up to S <= 2^1000; no value flushed is infinite or NaN. This also holds for any number of threads that use the client, and once the destructor has returned the operations sent carry the whole total, provided that stopping the periodic timer waits for a callback under way (C91).", "quantifier": "for all sequences of reports, flushes and settings, for all schedules of any number of threads, and for all metrics, label sets and values", "why_tests_cant": "A test compares one sum with a tolerance. That the error stays within a bound for every grouping that eviction, expiry and other threads lead to needs an induction over the reports.", "anchors": ["src/operation_aggregator.cc: MergeDeltaMetricValue", "src/operation_aggregator.cc: OperationAggregator::MergeOperation", "src/report_aggregator_impl.cc: ReportAggregatorImpl::Report", "src/service_control_client_impl.cc: ServiceControlClientImpl::~ServiceControlClientImpl"]}
{"id": "C117", "title": "No sample of a reported distribution is lost or counted twice", "statement": "For a delta metric whose values are distributions, the operations flushed, together with those still cached, count exactly the samples of the accepted reports, in total and in each bucket. This also holds for any number of threads that use the client, and once the destructor has returned, with the same proviso as in C116, the operations sent count all of them.", "quantifier": "for all sequences of reports, flushes and settings, for all schedules of any number of threads, and for all metrics, label sets, layouts and distributions", "why_tests_cant": "A test merges a few distributions. The failure of a merge is not reported to the caller, so lost samples go unnoticed; that none are lost must be shown for every order of merges, evictions and flushes.", "anchors": ["src/operation_aggregator.cc: MergeDeltaMetricValue", "utils/distribution_helper.cc: DistributionHelper::Merge", "src/report_aggregator_impl.cc: ReportAggregatorImpl::Report", "src/service_control_client_impl.cc: ServiceControlClientImpl::~ServiceControlClientImpl"]}
{"id": "C118", "title": "Distributions sent describe the samples reported", "statement": "If distributions filled with AddSample and Merge are reported for a delta metric, with one finite layout, the reported ones can be split into groups, one for each distribution flushed or cached, such that its count, minimum and maximum are exactly those of the samples of the group, and its mean and sum of squared deviation are as close to the exact ones as C103 and C115 say. This also holds for any number of threads, and, with the same proviso as in C116, after the destructor for what was sent.", "quantifier": "for all sequences of reports, flushes and settings, for all schedules of any number of threads, for all metrics and label sets, and for up to 2^40 samples of absolute value at most 2^480", "why_tests_cant": "Which reports are merged into one operation depends on evictions, expiry and the schedule; a test sees one of the groupings and samples whose statistics happen to be exact.", "anchors": ["src/operation_aggregator.cc: MergeDeltaMetricValue", "utils/distribution_helper.cc: DistributionHelper::Merge", "utils/distribution_helper.cc: DistributionHelper::AddSample", "src/report_aggregator_impl.cc: ReportAggregatorImpl::Report"]}
{"id": "C119", "title": "Double and distribution values of checks answered from the cache are not lost", "statement": "For a delta metric, the values of checks answered positively from the cache, together with those of some checks that were also given to a transport although an approval was cached (C67), are kept in the check operations sent by flushes, on their way to the transport, or still cached: totals of finite doubles up to the rounding error of C116, samples of distributions of one finite layout exactly, in total and in each bucket, and their statistics as in C118. Once the destructor has returned they have all been sent.", "quantifier": "for all sequences of calls, for all schedules of any number of threads, and for all metrics, label sets and values", "why_tests_cant": "As for C116-C118; in addition a check may be counted both by the server and by the cache, which a test of one sequence does not separate.", "anchors": ["src/check_aggregator_impl.cc: CheckAggregatorImpl::Check", "src/check_aggregator_impl.cc: CheckAggregatorImpl::CacheElem::Aggregate", "src/operation_aggregator.cc: MergeDeltaMetricValue", "utils/distribution_helper.cc: DistributionHelper::Merge"]}
{"id": "C120", "title": "What is sent are faithful summaries of what was accepted", "statement": "The operations of the reports the client accepted without sending them can be split into groups, one for each operation sent by a flush, on its way to the transport, dropped because the client is being destroyed, or still cached, so that each accepted operation is in exactly one group. The operations of a group agree in name, consumer and labels, and the one sent for them is a summary: its time window is the hull of their windows, it has all their log entries in order, each metric and each label set of theirs exactly once and no others, the sum of integer values of a delta metric, the latest value of any other metric, and for the rest it equals the first of them. Once the destructor has returned, with the same proviso as in C116, the operations sent are summaries of all operations accepted. The same holds, up to the destructor, for the operations of checks that were answered positively from the cache, together with those of some checks also given to a transport (C67).", "quantifier": "for all sequences of calls, for all schedules of any number of threads, and for all operations", "why_tests_cant": "A test looks at a few fields of a few merged operations. That every field of everything sent is accounted for, and that no operation is summarised twice or left out, concerns every order of merges, evictions, expiries, flushes and threads.", "anchors": ["src/operation_aggregator.cc: OperationAggregator::MergeOperation", "src/operation_aggregator.cc: OperationAggregator::ToOperationProto", "src/report_aggregator_impl.cc: ReportAggregatorImpl::Report", "src/check_aggregator_impl.cc: CheckAggregatorImpl::Check", "src/service_control_client_impl.cc: ServiceControlClientImpl::~ServiceControlClientImpl"]}
{"id": "C121", "title": "With IEEE doubles a sample is counted in the right exponential bucket", "statement": "With an exponential layout AddSample adds one to the bucket whose range, computed from the scale and the growth factor exactly, contains the sample, and to no other. (False: even with a correctly rounded log2 the sample 3375 = 15^3 is counted below the bound 15^3 for growth factor 15 and scale 1. Proved: the range of the bucket contains the sample up to a relative error of 2^-37, so it is at most one bucket off, if the growth factor is at least 1 + 2^-20, log2 is accurate to a relative error of 2^-50, and the quotient of the sample by the scale does not overflow.)", "quantifier": "every exponential layout, every finite double, every log2 of bounded error", "why_tests_cant": "The quotient of two rounded logarithms is truncated; whether it falls short of an integer depends on the last bit, and tests use powers of two, where log2 is exact.", "anchors": ["utils/distribution_helper.cc: UpdateExponentialBucketCount", "utils/distribution_helper.cc: DistributionHelper::AddSample"]}
{"id": "C122", "title": "The cache's age query and its iterators tell the truth", "statement": "AgeOfLRUItemInMicroseconds returns the age of the least recently used element of the cache, 0 if the cache is empty. A loop from begin() to end() visits every entry of the cache exactly once, shows its key, value and time of last use (or insertion), and ends. (The first is false: in LRU mode pinned entries are not considered, and the query overflows once the element has not been used for 107 days; proved as the greatest age of an idle entry below that.)", "quantifier": "all histories within the pin protocol, both eviction modes, all traversal orders of the hash table", "why_tests_cant": "unbounded histories; elements months old", "anchors": ["utils/simple_lru_cache_inl.h: AgeOfLRUItemInMicroseconds", "utils/simple_lru_cache_inl.h: begin", "utils/simple_lru_cache_inl.h: end", "utils/simple_lru_cache_inl.h: SimpleLRUCacheConstIterator"]}
{"id": "C123", "title": "DebugOutput shows every element once", "statement": "DebugOutput returns. It calls DebugIterator once for every entry of the cache, with its pin count, its time of last use and is_deferred false, and then once for every value that was removed but is still pinned, with its pin count and is_deferred true; it never calls it for anything else.", "quantifier": "all histories within the pin protocol, both eviction modes, debug and release builds", "why_tests_cant": "unbounded histories; walks the linked lists of removed entries", "anchors": ["utils/simple_lru_cache_inl.h: DebugOutput", "utils/simple_lru_cache_inl.h: DebugIterator"]}
{"id": "C124", "title": "What the cache answers is not older than the flush interval, whatever other threads do", "statement": "With a clock that does not go backwards: take any moment at which every check of a signature that a transport has completed has had its done callback. If a check of this signature, called by any thread at least the flush interval after everything the cache did before that moment, is answered OK without a transport, then since that moment a transport was given a check of the same signature for some call or has completed one, or a thread has been told by the cache to give it one and is about to do so. So however many threads keep checking, the server is asked again every flush interval.", "quantifier": "all schedules of any number of threads, any number of calls, transports and done callbacks that run for any time, complete any transport call at any time and call the client again, timer events and destruction at any moment the contract allows; all requests, answers and clocks", "why_tests_cant": "exponentially many interleavings of checks, completions and the timer; the age of an answer is decided in the cache, and the transport is called later and elsewhere", "anchors": ["src/service_control_client_impl.cc: Check", "src/check_aggregator_impl.cc: Check", "src/check_aggregator_impl.cc: CacheResponse", "src/check_aggregator_impl.cc: ShouldFlush"]}
{"id": "C125", "title": "At most one allocation request of a signature is with the server, whatever other threads do", "statement": "With a clock that does not go backwards and no two quota requests of different identity with one signature: take a moment at which every allocation request of a signature given to a transport has been completed, its completion has reached the cache, and no thread has another in its hands. From then on, until the expiration interval has passed or the destruction begins, at most one allocation request of the signature is given to a transport and not yet completed, however many threads ask for quota at the same time, and while it is, no thread has another in its hands. (Once the expiration interval has passed there can be more: a witness is proved.)", "quantifier": "all schedules of any number of threads, any number of calls, transports and done callbacks that run for any time, complete any transport call at any time and call the client again, timer events and destruction at any moment the contract allows; all signatures, requests and clocks", "why_tests_cant": "exponentially many interleavings of calls, completions and the timer; the flag that prevents a second request is set in the cache, the transport is called later and elsewhere", "anchors": ["src/service_control_client_impl.cc: Quota", "src/service_control_client_impl.cc: AllocateQuotaFlushCallback", "src/quota_aggregator_impl.cc: Quota", "src/quota_aggregator_impl.cc: CacheResponse", "src/quota_aggregator_impl.cc: OnCacheEntryDelete", "src/cache_removed_items_handler.h: FlushOut"]}
{"id": "C126", "title": "A call with a transport of its own is sent with that transport", "statement": "A Check, Quota or Report made with a per-request transport is given to that transport, or answered without any transport; the per-request transport is called at most once, never if it is empty, and never with the request of another call. (False for Quota while its cache is on: the first allocation request for a signature is a Quota call's own request, yet it and all others are given to the default transport, and per-request transports are never called. A Report the cache holds is merged with others and sent with the default transport. Proved for every Check, for every call made while its cache is off, and for Reports with an important operation.)", "quantifier": "all schedules of any number of threads, any number of calls, transports and done callbacks that run for any time, complete any transport call at any time and call the client again, timer events and destruction at any moment the contract allows; all transport arguments", "why_tests_cant": "every interleaving; which of two transports is used depends on what the cache answers, and a test that uses one transport cannot tell", "anchors": ["src/service_control_client_impl.cc: Check", "src/service_control_client_impl.cc: Quota", "src/service_control_client_impl.cc: Report", "src/service_control_client_impl.cc: AllocateQuotaFlushCallback", "src/service_control_client_impl.cc: CheckFlushCallback", "src/service_control_client_impl.cc: ReportFlushCallback"]}
{"id": "C127", "title": "An expired quota entry is gone after the timer", "statement": "If at some moment the expiration interval has passed since the last allocation request of a signature was sent, and from then on no Quota call of the signature sends one (in particular if there is no such call), then nothing is sent for the signature any more, and a Flush made later than the flush interval after that moment leaves no entry of the signature: the next Quota of it gets the empty response and asks the server anew. The same holds of a client under every schedule of its threads, with the timer's function for Flush.", "quantifier": "all configurations with a non-negative flush interval, all clocks that do not go back, all histories of calls with no two quota requests of different identity with one signature", "why_tests_cant": "Unit tests sleep past the interval once, with one entry; the claim is about every interleaving of other calls, put-backs on expiry and evictions in between.", "anchors": ["src/quota_aggregator_impl.cc: OnCacheEntryDelete", "src/quota_aggregator_impl.cc: ShouldDrop", "src/quota_aggregator_impl.cc: Flush", "utils/simple_lru_cache_inl.h: DiscardIdle"]}
