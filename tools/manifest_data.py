M = "Verif.Money."
V = "Verif."
D = "Verif.Dist."
L = "Verif.Lru."
R = "Verif.Report."
K = "Verif.Check."
Q = "Verif.Quota."
W = "Verif.Client."
N = "Verif.Conc."
T = "Verif.Http."
P = "Verif.Threads."
I = "Verif.Ieee."
def ns(p, *xs):
    return [p + x for x in xs]
CLAIMS = [
 ("C01", "proved", ns(M, "C01_validateMoney_spec"), ""),
 ("C02", "proved", ns(M, "C02_tryAdd_exact"), ""),
 ("C03", "partial", ns(M, "C03_tryAdd_overflow_partial", "C03_false_spurious_overflow", "C03_false_undefined"),
  "The code reports overflow for sums of sub-unit amounts that are representable, and executes a signed overflow; both are proved with witnesses."),
 ("C04", "proved", ns(M, "C04_tryAdd_comm", "C04_currency_mismatch", "C04_saturates"), ""),
 ("C05", "proved", ns(D, "C05_samples_counted", "C05_explicit_total", "C07_samples_described"),
  "Counting holds for any double arithmetic. That no index is out of range is proved for explicit bounds with any double arithmetic, for linear and exponential layouts in exact arithmetic (C07_samples_described)."),
 ("C06", "partial", ns(D, "C06_bucket_contains_sample_partial", "C06_false_exponential_cast"),
  "Exact arithmetic (reals). Exponential layouts need the index ratio to fit an int; otherwise the cast is undefined, proved with a witness."),
 ("C07", "proved", ns(D, "C07_samples_described"), "Exact arithmetic (reals)."),
 ("C08", "proved", ns(D, "C08_merge_describes"), "Exact arithmetic (reals), equal layouts."),
 ("C09", "proved", ns(D, "C09_merge_rejects", "C09_tolerance", "C09_merge_adds", "C09_merge_defined"), ""),
 ("C10", "partial", ns(D, "C10_initLinear", "C10_initExponential", "C10_initExplicit", "C10_init_describes_partial",
   "C10_false_size_overflow", "C10_false_empty_explicit", "C10_false_explicit_twice"),
  "Decision tables proved. Three violations are proved: size overflow near INT_MAX, empty bounds accepted then read, second InitExplicit appends bounds."),
 ("C11", "proved", ns(V, "C11_report_signature_invariant", "C11_metric_value_signature_invariant",
   "C11_quota_signature_invariant", "C11_check_signature_invariant"), ""),
 ("C12", "proved", ns(V, "C12_report_signature_injective"), ""),
 ("C13", "partial", ns(V, "C13_check_signature_exact", "C13_check_signature_injective_partial",
   "C13_check_signature_injective_no_metrics", "C13_false_label_metric_confusion", "C13_false_duplicate_metric"),
  "The encoding is ambiguous between labels and metrics and drops duplicate metric sets; witnesses are proved, and injectivity where it holds."),
 ("C14", "proved", ns(V, "C14_quota_signature_iff"), ""),
 ("C15", "proved", ns(V, "C15_metric_value_signature_iff", "C15_metric_value_signature_collision"), ""),
 ("C16", "proved", ns(V, "C16_delta_int_sum", "C16_only_overflow", "C16_defined", "C16_intermediate_overflow"), ""),
 ("C17", "proved", ns(V, "C17_time_window"), ""),
 ("C18", "proved", ns(V, "C18_gauge_latest"), "A missing end time counts as time 0, as in the code."),
 ("C19", "proved", ns(V, "C19_log_entries"), ""),
 ("C20", "proved", ns(V, "C20_shape"), ""),
 ("C21", "proved", ns(V, "C21_order_independent"), "For aggregates that are defined; whether a running total overflows can depend on the order (C16_intermediate_overflow)."),
 ("C22", "proved", ns(V, "C22_other_types_dropped", "C22_distribution_rejected"), ""),
 ("C23", "proved", ns(V, "C23_quota_sum", "C23_extra_values_dropped", "C23_false_empty_metric"),
  "A metric without values is undefined behaviour; values after the first are dropped."),
 ("C24", "proved", ns(L, "C24_size_exact", "C24_entries_pinned_exact"), ""),
 ("C25", "proved", ns(L, "C25_overfull_all_pinned", "C25_unpinned_within_capacity"), ""),
 ("C26", "proved", ns(L, "C26_deleted_once", "C26_pinned_not_deleted", "C26_deleted_nodup", "C26_deletion_justified",
   "C26_emptied_all_deleted"), ""),
 ("C27", "proved", ns(L, "C27_lookup_current", "C27_lookup_hit", "C27_insert_present"), ""),
 ("C28", "proved", ns(L, "C28_evicts_least_recent", "C28_evicts_no_more_than_needed"), ""),
 ("C29", "proved", ns(L, "C29_lookup_not_expired", "C29_removeExpired_exact", "C29_false_pinned"),
  "Without the restriction to unpinned entries the claim is false in LRU mode (C29_false_pinned)."),
 ("C30", "proved", ns(L, "C30_legal_call_succeeds", "C30_configure_succeeds", "C30_false_mixed_options_corrupt",
   "C30_false_mixed_options_stuck", "C30_false_backwards_clock"),
  "Outside the protocol: mixing update_eviction_order options corrupts the list, a clock going backwards fails a debug assertion."),
 ("C31", "proved", ns(K, "C31_served_latest"), ""),
 ("C32", "proved", ns(K, "C32_bypass"), ""),
 ("C33", "proved", ns(K, "C33_served_fresh"), ""),
 ("C34", "proved", ns(K, "C34_rate_limited"), ""),
 ("C35", "partial", ns(K, "C35_not_idle_partial", "C35_false_stale_response"),
  "The code refreshes the expiry on every use, so the claim is false (witness); proved: no use was longer ago than the expiration."),
 ("C36", "proved", ns(K, "C36_groups", "C36_log_entries", "C36_delta_totals", "C36_flushAll_empties", "C36_requests_well_formed"), ""),
 ("C37", "proved", ns(K, "C37_bounded"), ""),
 ("C38", "proved", ns(R, "C38_log_entries", "C38_delta_totals", "C38_flushAll_empties", "C41_groups"),
  "For accepted reports of calls that returned; an integer overflow while merging is undefined behaviour (C16, C64)."),
 ("C39", "proved", ns(R, "C39_requests_well_formed"), ""),
 ("C40", "proved", ns(R, "C40_pass_through"), ""),
 ("C41", "proved", ns(R, "C41_groups"), ""),
 ("C42", "proved", ns(R, "C42_merged_below_limit", "C42_insert_unchecked"),
  "An operation that arrives with 100 or more entries is cached unchecked (witness C42_insert_unchecked)."),
 ("C43", "proved", ns(R, "C43_flush_exact"), ""),
 ("C44", "proved", ns(Q, "C44_quota_serves", "C44_invalid_rejected", "C44_quota_total"),
  "The only failure is undefined behaviour in merging the callers' own operations (C23)."),
 ("C45", "proved", ns(Q, "C45_one_in_flight"), "Assuming equal signatures mean equal method, consumer and metric names (no collision)."),
 ("C46", "proved", ns(Q, "C46_conservation", "C46_token_totals", "C46_false_tokens_discarded", "C46_false_late_flush"),
  "The exceptions are real (witness)."),
 ("C47", "proved", ns(Q, "C47_negative_absorbs_nothing", "C47_negative_refresh", "C47_negative_silent"), ""),
 ("C48", "partial", ns(Q, "C48_full_cache_returns_partial", "C48_false_full_cache", "C48_false_witness"),
  "False: on a full cache of unexpired entries the call never returns, for every nesting depth; proved: it returns if an entry has expired or FlushAll was called."),
 ("C49", "proved", ns(W, "C49_fail_open") + ns(Q, "C49_response_unblocks", "C49_refreshes_again"),
  "Clocks must not go backwards; the refresh half assumes no signature collision and is stated for the quota aggregator."),
 ("C50", "proved", ns(W, "C50_exactly_once", "C50_done_reports", "C50_sent_as_called", "C50_completed_answered"), ""),
 ("C51", "proved", ns(W, "C51_statistics"), "Overflow of the 64-bit counters is not modelled."),
 ("C52", "proved", ns(W, "C52_error_not_cached"), ""),
 ("C53", "proved", ns(W, "C53_all_sent", "C53_log_entries", "C53_delta_totals", "C53_destroy_returns", "C53_nothing_after"),
  "Report data: log entries and integer delta metrics."),
 ("C54", "partial", ns(W, "C54_late_completion_partial", "C54_false_flushed_quota", "C54_false"),
  "False for allocation requests sent by flushes: their completion always uses the destroyed client; proved for all others."),
 ("C55", "proved", ns(W, "C55_timer"), "Intervals are ints."),
 ("C56", "partial", ns(W, "C56_empty_transport_partial", "C56_never_called_partial", "C56_false"),
  "False: a flush calls an empty default transport (witness); proved: a call with an empty transport, and that nothing empty is called when all default transports are given."),
 ("C57", "proved", ns(N, "C57_linearizable", "C57_numbers", "C57_report", "C57_check", "C57_quota", "C57_delivered"),
  "Atomic steps are the lock operations, the body of each method in one step per emitted item, and the callbacks; the memory is sequentially consistent (the code has no data shared outside its locks)."),
 ("C58", "proved", ns(N, "C58_callback_unlocked", "C58_callback_exclusive", "C58_no_deadlock"),
  "C59_false_threads shows that the assumption about the callback is needed."),
 ("C59", "partial", ns(W, "C59_no_deadlock_partial", "C59_false") + ns(N, "C59_false_threads"),
  "False (witness); proved: no self-deadlock if no transport completes in place."),
 ("C60", "proved", ns(V, "C60_md5_chunking", "C60_debugString_injective"), ""),
 ("C61", "partial", ns(T, "C61_convert_partial", "C61_status_partial", "C61_false_codes", "C61_false_transfer", "C61_false_check", "C61_false_cached"),
  "False: no specific code gets its status, failed transfers are reported as successes, and refused checks are let through and cached; proved: what is reported instead, and that no code is mistaken for a success by the conversion."),
 ("C62", "proved", ns(V, "C62_delta_distribution"), "Exact arithmetic (reals)."),
 ("C63", "proved", ns(V, "C63_delta_double_sum"), ""),
 ("C64", "proved", ns(R, "C64_report_returns", "C64_report_flush_returns"), ""),
 ("C65", "proved", ns(R, "C65_bounded"), ""),
 ("C66", "proved", ns(K, "C66_stored", "C66_served", "C66_evicted_only"), ""),
 ("C67", "partial", ns(K, "C67_cold_miss_partial", "C67_false_counted_twice"),
  "False for a check told to refresh a cached positive response (witness); proved for checks that find nothing cached."),
 ("C68", "proved", ns(K, "C68_check_returns"), ""),
 ("C69", "proved", ns(K, "C69_options"), "The overflow at INT_MAX is part of the theorem."),
 ("C70", "proved", ns(Q, "C70_kept_until_expiration"), ""),
 ("C71", "partial", ns(Q, "C71_refresh_rate_partial", "C71_false_too_soon"),
  "False when operations are pending (witness); proved when none are."),
 ("C72", "partial", ns(Q, "C72_false_charged_twice", "C72_covered_partial", "C72_not_resent_partial"),
  "False (witness); proved: what is sent is covered by what was asked for plus what was sent again by refreshes without pending operations (integer, non-negative amounts, no signature collision)."),
 ("C73", "partial", ns(Q, "C73_false_after_flushAll", "C73_empties_partial", "C73_like_new_partial"),
  "False (witness); proved: FlushAll empties the cache, and calls after it return and send what they do on a new aggregator for at least the refresh interval, while the cache has room."),
 ("C74", "proved", ns(W, "C74_no_leak"), ""),
 ("C75", "proved", ns(W, "C75_check_answer"), ""),
 ("C76", "proved", ns(W, "C76_quota_answer"), "Clocks must not go backwards."),
 ("C77", "proved", ns(W, "C77_returns"), "Quota calls are the subject of C44 and C48."),
 ("C78", "proved", ns(N, "C78_all_return", "C78_report", "C78_check", "C78_quota"),
  "The undefined behaviour that remains is that of C64, C68, C44 and C48."),
 ("C79", "partial", ns(T, "C79_sent_partial", "C79_false_truncated"),
  "False for every request whose serialization has a zero byte; proved for the others."),
 ("C80", "proved", ns(L, "C80_still_in_use", "C80_deferred", "C80_last_use_time"), ""),
 ("C81", "proved", ns(L, "C81_removed_exactly", "C81_deleted_exactly"), ""),
 ("C82", "partial", ns(L, "C82_switch_partial", "C82_limit_partial", "C82_refused", "C82_false_mode_switch", "C82_false_mode_switch_stuck"),
  "False with pinned entries (witnesses); proved whenever no pins are held. Setting the limit anew in the same mode is proved with pinned entries too, in age mode unless one of them had expired and would not have under the new limit. A debug build needs a clock that does not go backwards (C30)."),
 ("C83", "proved", ns(L + "Ptr.", "C83_legal_call_succeeds", "C83_configure_succeeds", "C83_reconfigure_succeeds", "C83_limit_succeeds", "C83_refines", "C83_refined", "C83_no_leak", "C83_eviction_list", "C83_deferred_lists", "C83_queries"),
  "Deleters that act on their own state only.  A debug build needs a clock that does not go backwards (C30)."),
 ("C84", "proved", ns(W, "C84_reports_sent"), "Clocks must not go backwards."),
 ("C85", "proved", ns(K, "C85_flush_expires") + ns(W, "C85_tick_expires"), "Clocks must not go backwards."),
 ("C86", "proved", ns(Q, "C86_flush_sends") + ns(W, "C86_tick_sends"), "Clocks must not go backwards."),
 ("C87", "proved", ns(P, "C87_exactly_once", "C87_all_answered", "C87_done_reports", "C87_sent_as_called", "C87_completed_once"), ""),
 ("C88", "proved", ns(P, "C88_not_ahead", "C88_statistics"), ""),
 ("C89", "partial", ns(P, "C89_memory_safe_partial", "C89_no_leak", "C89_false_running"),
  "Proved except for the completions of flushed quota requests after or during the destruction (witness here and in C54), empty default transports (C56), integer overflow in the aggregators (C64, C68) and quota calls (C48). Clocks must not go backwards."),
 ("C90", "proved", ns(P, "C90_returns", "C90_waits", "C90_blocked"), ""),
 ("C91", "partial", ns(P, "C91_log_entries", "C91_delta_totals", "C91_all_sent_partial", "C91_false_timer"),
  "The last part is false for a timer whose Stop does not wait for the function it is calling (witness), which the interface allows; proved for timers that wait."),
 ("C92", "partial", ns(P, "C92_finite", "C92_no_deadlock_partial", "C92_comes_to_rest_partial", "C92_all_return_partial", "C92_false_reentrant"),
  "False when a transport called by a flush callback calls the client (witness); proved when such transports only return or complete flushed checks and reports.  Executions may also end in a fault (C89)."),
 ("C93", "proved", ns(P, "C93_nothing_after"), ""),
 ("C94", "proved", ns(P, "C94_check_answer", "C94_quota_answer"), "The quota part needs clocks that do not go backwards."),
 ("C95", "proved", ns(P, "C95_local", "C95_sent", "C95_important_sent", "C95_held_answered", "C95_refused_answered"), ""),
 ("C96", "partial", ns(P, "C96_direct_partial", "C96_false_kept"),
  "The last part is false: the response to a high importance check is kept (witness).  Proved: it is sent exactly once, as it is, and never answered from a cache."),
 ("C97", "proved", ns(P, "C97_reports_sent", "C97_log_entries_sent"), ""),
 ("C98", "partial", ns(P, "C98_conserved", "C98_all_sent_partial", "C98_false_dropped"), "The conservation is proved in full. That all is sent when the destructor returns is false for the code (C98_false_dropped); proved when no thread holds or dropped a check of the cache."),
 ("C99", "partial", ns(I, "C99_milliseconds_partial", "C99_negative", "C99_defined", "C99_infinite", "C99_monotone", "C99_false_nan", "C99_false_one_short"),
  "One microsecond can be lost, and NaN leads to an undefined conversion (witnesses); the rest is proved."),
 ("C100", "partial", ns(I, "C100_linear_partial", "C100_add_sample_partial", "C100_explicit", "C100_exponential_partial", "C100_false_overflow", "C100_false_nan_width",
  "C100_false_exponential_overflow", "C100_false_exponential_growth"),
  "False when the distance to the offset or the quotient by the scale overflows, for a NaN width, and for growth factors next to one (witnesses). log2 is a parameter, assumed monotone, zero at one and at most 1024. Explicit bounds: proved for bounds other than NaN."),
 ("C101", "partial", ns(I, "C101_within_one_partial", "C101_false_adjacent", "C101_false_far"), "False by one bucket, and by more for large offsets (witnesses)."),
 ("C102", "proved", ns(I, "C102_linear", "C102_exponential", "C102_explicit"), "log2 is a parameter, assumed monotone, zero at one and positive at the growth factor."),
 ("C103", "partial", ns(I, "C103_merged_error_partial", "C103_mean_error_partial", "C103_false_outside"), "The mean can exceed the maximum (witness); error bound, minimum and maximum are proved for up to 2^40 samples of at most 2^900."),
 ("C104", "partial", ns(I, "C104_not_negative_partial", "C104_false_overflow", "C104_false_foreign"), "False after an overflow of the sum (witness); proved for finite means and up to 2^53 samples."),
 ("C105", "proved", ns(I, "C105_report_flush", "C105_check_flush", "C105_timer_reports"), ""),
 ("C106", "proved", ns(P, "C106_ledger", "C106_tokens", "C106_false_destroyed", "C106_false_dropped"), "The account of all granted tokens is proved in full. The witnesses show that tokens are discarded and dropped without a negative response."),
 ("C107", "proved", ns(K, "C107_check_same", "C107_check_same_back", "C107_check_no_fault", "C107_check_objects", "C107_check_no_leak") +
  ns(R, "C107_report_same", "C107_report_same_back", "C107_report_no_fault", "C107_report_objects", "C107_report_no_leak") +
  ns(Q, "C107_quota_same", "C107_quota_no_fault", "C107_quota_no_leak"),
  "Check and report: a debug build needs a clock that does not go backwards. Quota: clocks must not go backwards; a call for a new signature on a full cache may not return (C48)."),
 ("C108", "proved", ns(P, "C108_expired", "C108_sent", "C108_log_entries"), ""),
 ("C109", "proved", ns(P, "C109_served"), ""),
 ("C110", "proved", ns(P, "C110_quotas_fresh"), ""),
 ("C111", "partial", ns(I, "C111_same_layout_partial", "C111_false_infinite", "C111_false_direction"), "False for infinite bounds and for nearly equal layouts (witnesses); proved for finite layouts."),
 ("C112", "partial", ns(P, "C112_not_after_done_partial", "C112_not_after_return", "C112_false_report"), "False for the request of a report given to a transport that completes in place (witness); everything else is proved."),
 ("C113", "partial", ns(P, "C113_alive_partial", "C113_false_flushed", "C113_false_report"), "False for requests the client does not copy: checks and reports sent from the cache, and Report calls (witnesses)."),
 ("C114", "partial", ns(P, "C114_between_partial", "C114_not_ahead_partial", "C114_exact_partial", "C114_false_snapshot"), "False as a snapshot (witness); proved counter by counter, and as a whole if nothing happens meanwhile."),
 ("C115", "partial", ns(I, "C115_ssd_error_partial", "C115_false_equal", "C115_false_zero"), "Zero neither exactly for equal samples (witnesses); error bound proved for up to 2^40 samples of at most 2^480."),
 ("C116", "proved", ns(I, "C116_double_totals", "C116_threads", "C116_all_sent", "C116_false_exact", "C116_false_overflow"), "The witnesses show that the total is not exact and that the bound on the total is needed."),
 ("C117", "partial", ns(I, "C117_samples_kept_partial", "C117_threads_partial", "C117_all_sent_partial", "C117_false_infinite"), "False if the layouts differ (C22) or have an infinite bound (witness); proved for one finite layout."),
 ("C118", "proved", ns(I, "C118_statistics", "C118_threads", "C118_all_sent"), "For up to 2^40 samples of at most 2^480 in distributions filled by the helper functions with one finite layout."),
 ("C119", "partial", ns(I, "C119_absorbed", "C119_conserved", "C119_all_sent_partial"), "The conservation is proved in full. That all is sent when the destructor returns fails as in C98 (C98_false_dropped); proved when no thread holds or dropped a check of the cache."),
 ("C120", "proved", ns(V, "C120_report_cache", "C120_check_cache", "C120_reports", "C120_all_sent", "C120_checks", "C120_checks_all_sent_partial"), "C120_checks_all_sent_partial goes beyond the claim: what checks leave when the destructor returns, as far as C98 allows. Agreement in name, consumer and labels up to hash collisions and zero bytes, as in C12; for checks, agreement of the signature."),
 ("C121", "partial", ns(I, "C121_near_partial", "C121_add_sample_partial", "C121_within_one_partial", "C121_false_bound"), "False for samples at a bound, for every correctly rounded log2 (witness); such a log2 exists and is accurate (nearest_exists, Nearest.accurate). Proved up to a relative error of 2^-37."),
 ("C122", "partial", ns(L, "C122_age_partial", "Ptr.C122_age_pointers_partial", "C122_iterates", "C122_false_in_use", "C122_false_overflow"), "Iteration is proved in full. The age is false if values are in use in LRU mode and overflows after 107 days (witnesses); proved of idle values below that."),
 ("C123", "proved", ns(L, "Ptr.C123_debug_output"), "The calls of DebugIterator; the text around them is not modelled."),
 ("C124", "proved", ns(P, "C124_fresh"), ""),
 ("C125", "proved", ns(P, "C125_one_in_flight", "C125_false_slow"), "C125_false_slow shows that the limit of time in the claim is needed."),
 ("C126", "partial", ns(P, "C126_alone", "C126_carried_partial", "C126_false_quota_general", "C126_false_quota"), "False for Quota while its cache is on (C126_false_quota, and C126_false_quota_general for all schedules); Reports that the cache holds are sent with the default transport too."),
 ("C127", "proved", ns(Q, "C127_expires", "C127_asks_again") + ns(P, "C127_threads"), "C127_threads is the same for a client under every schedule. No two operations of different identity with one signature, as in C45 and C70."),
]
