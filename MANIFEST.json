{
 "claims": [
  {
   "property": "C01",
   "status": "proved",
   "theorems": [
    "Verif.Money.C01_validateMoney_spec"
   ],
   "note": ""
  },
  {
   "property": "C02",
   "status": "proved",
   "theorems": [
    "Verif.Money.C02_tryAdd_exact"
   ],
   "note": ""
  },
  {
   "property": "C03",
   "status": "partial",
   "theorems": [
    "Verif.Money.C03_tryAdd_overflow_partial",
    "Verif.Money.C03_false_spurious_overflow",
    "Verif.Money.C03_false_undefined"
   ],
   "note": "The code reports overflow for sums of sub-unit amounts that are representable, and executes a signed overflow; both are proved with witnesses."
  },
  {
   "property": "C04",
   "status": "proved",
   "theorems": [
    "Verif.Money.C04_tryAdd_comm",
    "Verif.Money.C04_currency_mismatch",
    "Verif.Money.C04_saturates"
   ],
   "note": ""
  },
  {
   "property": "C05",
   "status": "proved",
   "theorems": [
    "Verif.Dist.C05_samples_counted",
    "Verif.Dist.C05_explicit_total",
    "Verif.Dist.C07_samples_described"
   ],
   "note": "Counting holds for any double arithmetic. That no index is out of range is proved for explicit bounds with any double arithmetic, for linear and exponential layouts in exact arithmetic (C07_samples_described)."
  },
  {
   "property": "C06",
   "status": "partial",
   "theorems": [
    "Verif.Dist.C06_bucket_contains_sample_partial",
    "Verif.Dist.C06_false_exponential_cast"
   ],
   "note": "Exact arithmetic (reals). Exponential layouts need the index ratio to fit an int; otherwise the cast is undefined, proved with a witness."
  },
  {
   "property": "C07",
   "status": "proved",
   "theorems": [
    "Verif.Dist.C07_samples_described"
   ],
   "note": "Exact arithmetic (reals)."
  },
  {
   "property": "C08",
   "status": "proved",
   "theorems": [
    "Verif.Dist.C08_merge_describes"
   ],
   "note": "Exact arithmetic (reals), equal layouts."
  },
  {
   "property": "C09",
   "status": "proved",
   "theorems": [
    "Verif.Dist.C09_merge_rejects",
    "Verif.Dist.C09_tolerance",
    "Verif.Dist.C09_merge_adds",
    "Verif.Dist.C09_merge_defined"
   ],
   "note": ""
  },
  {
   "property": "C10",
   "status": "partial",
   "theorems": [
    "Verif.Dist.C10_initLinear",
    "Verif.Dist.C10_initExponential",
    "Verif.Dist.C10_initExplicit",
    "Verif.Dist.C10_init_describes_partial",
    "Verif.Dist.C10_false_size_overflow",
    "Verif.Dist.C10_false_empty_explicit",
    "Verif.Dist.C10_false_explicit_twice"
   ],
   "note": "Decision tables proved. Three violations are proved: size overflow near INT_MAX, empty bounds accepted then read, second InitExplicit appends bounds."
  },
  {
   "property": "C11",
   "status": "proved",
   "theorems": [
    "Verif.C11_report_signature_invariant",
    "Verif.C11_metric_value_signature_invariant",
    "Verif.C11_quota_signature_invariant",
    "Verif.C11_check_signature_invariant"
   ],
   "note": ""
  },
  {
   "property": "C12",
   "status": "proved",
   "theorems": [
    "Verif.C12_report_signature_injective"
   ],
   "note": ""
  },
  {
   "property": "C13",
   "status": "partial",
   "theorems": [
    "Verif.C13_check_signature_exact",
    "Verif.C13_check_signature_injective_partial",
    "Verif.C13_check_signature_injective_no_metrics",
    "Verif.C13_false_label_metric_confusion",
    "Verif.C13_false_duplicate_metric"
   ],
   "note": "The encoding is ambiguous between labels and metrics and drops duplicate metric sets; witnesses are proved, and injectivity where it holds."
  },
  {
   "property": "C14",
   "status": "proved",
   "theorems": [
    "Verif.C14_quota_signature_iff"
   ],
   "note": ""
  },
  {
   "property": "C15",
   "status": "proved",
   "theorems": [
    "Verif.C15_metric_value_signature_iff",
    "Verif.C15_metric_value_signature_collision"
   ],
   "note": ""
  },
  {
   "property": "C16",
   "status": "proved",
   "theorems": [
    "Verif.C16_delta_int_sum",
    "Verif.C16_only_overflow",
    "Verif.C16_defined",
    "Verif.C16_intermediate_overflow"
   ],
   "note": ""
  },
  {
   "property": "C17",
   "status": "proved",
   "theorems": [
    "Verif.C17_time_window"
   ],
   "note": ""
  },
  {
   "property": "C18",
   "status": "proved",
   "theorems": [
    "Verif.C18_gauge_latest"
   ],
   "note": "A missing end time counts as time 0, as in the code."
  },
  {
   "property": "C19",
   "status": "proved",
   "theorems": [
    "Verif.C19_log_entries"
   ],
   "note": ""
  },
  {
   "property": "C20",
   "status": "proved",
   "theorems": [
    "Verif.C20_shape"
   ],
   "note": ""
  },
  {
   "property": "C21",
   "status": "proved",
   "theorems": [
    "Verif.C21_order_independent"
   ],
   "note": "For aggregates that are defined; whether a running total overflows can depend on the order (C16_intermediate_overflow)."
  },
  {
   "property": "C22",
   "status": "proved",
   "theorems": [
    "Verif.C22_other_types_dropped",
    "Verif.C22_distribution_rejected"
   ],
   "note": ""
  },
  {
   "property": "C23",
   "status": "proved",
   "theorems": [
    "Verif.C23_quota_sum",
    "Verif.C23_extra_values_dropped",
    "Verif.C23_false_empty_metric"
   ],
   "note": "A metric without values is undefined behaviour; values after the first are dropped."
  },
  {
   "property": "C24",
   "status": "proved",
   "theorems": [
    "Verif.Lru.C24_size_exact",
    "Verif.Lru.C24_entries_pinned_exact"
   ],
   "note": ""
  },
  {
   "property": "C25",
   "status": "proved",
   "theorems": [
    "Verif.Lru.C25_overfull_all_pinned",
    "Verif.Lru.C25_unpinned_within_capacity"
   ],
   "note": ""
  },
  {
   "property": "C26",
   "status": "proved",
   "theorems": [
    "Verif.Lru.C26_deleted_once",
    "Verif.Lru.C26_pinned_not_deleted",
    "Verif.Lru.C26_deleted_nodup",
    "Verif.Lru.C26_deletion_justified",
    "Verif.Lru.C26_emptied_all_deleted"
   ],
   "note": ""
  },
  {
   "property": "C27",
   "status": "proved",
   "theorems": [
    "Verif.Lru.C27_lookup_current",
    "Verif.Lru.C27_lookup_hit",
    "Verif.Lru.C27_insert_present"
   ],
   "note": ""
  },
  {
   "property": "C28",
   "status": "proved",
   "theorems": [
    "Verif.Lru.C28_evicts_least_recent",
    "Verif.Lru.C28_evicts_no_more_than_needed"
   ],
   "note": ""
  },
  {
   "property": "C29",
   "status": "proved",
   "theorems": [
    "Verif.Lru.C29_lookup_not_expired",
    "Verif.Lru.C29_removeExpired_exact",
    "Verif.Lru.C29_false_pinned"
   ],
   "note": "Without the restriction to unpinned entries the claim is false in LRU mode (C29_false_pinned)."
  },
  {
   "property": "C30",
   "status": "proved",
   "theorems": [
    "Verif.Lru.C30_legal_call_succeeds",
    "Verif.Lru.C30_configure_succeeds",
    "Verif.Lru.C30_false_mixed_options_corrupt",
    "Verif.Lru.C30_false_mixed_options_stuck",
    "Verif.Lru.C30_false_backwards_clock"
   ],
   "note": "Outside the protocol: mixing update_eviction_order options corrupts the list, a clock going backwards fails a debug assertion."
  },
  {
   "property": "C31",
   "status": "proved",
   "theorems": [
    "Verif.Check.C31_served_latest"
   ],
   "note": ""
  },
  {
   "property": "C32",
   "status": "proved",
   "theorems": [
    "Verif.Check.C32_bypass"
   ],
   "note": ""
  },
  {
   "property": "C33",
   "status": "proved",
   "theorems": [
    "Verif.Check.C33_served_fresh"
   ],
   "note": ""
  },
  {
   "property": "C34",
   "status": "proved",
   "theorems": [
    "Verif.Check.C34_rate_limited"
   ],
   "note": ""
  },
  {
   "property": "C35",
   "status": "partial",
   "theorems": [
    "Verif.Check.C35_not_idle_partial",
    "Verif.Check.C35_false_stale_response"
   ],
   "note": "The code refreshes the expiry on every use, so the claim is false (witness); proved: no use was longer ago than the expiration."
  },
  {
   "property": "C36",
   "status": "proved",
   "theorems": [
    "Verif.Check.C36_groups",
    "Verif.Check.C36_log_entries",
    "Verif.Check.C36_delta_totals",
    "Verif.Check.C36_flushAll_empties",
    "Verif.Check.C36_requests_well_formed"
   ],
   "note": ""
  },
  {
   "property": "C37",
   "status": "proved",
   "theorems": [
    "Verif.Check.C37_bounded"
   ],
   "note": ""
  },
  {
   "property": "C38",
   "status": "proved",
   "theorems": [
    "Verif.Report.C38_log_entries",
    "Verif.Report.C38_delta_totals",
    "Verif.Report.C38_flushAll_empties",
    "Verif.Report.C41_groups"
   ],
   "note": "For accepted reports of calls that returned; an integer overflow while merging is undefined behaviour (C16, C64)."
  },
  {
   "property": "C39",
   "status": "proved",
   "theorems": [
    "Verif.Report.C39_requests_well_formed"
   ],
   "note": ""
  },
  {
   "property": "C40",
   "status": "proved",
   "theorems": [
    "Verif.Report.C40_pass_through"
   ],
   "note": ""
  },
  {
   "property": "C41",
   "status": "proved",
   "theorems": [
    "Verif.Report.C41_groups"
   ],
   "note": ""
  },
  {
   "property": "C42",
   "status": "proved",
   "theorems": [
    "Verif.Report.C42_merged_below_limit",
    "Verif.Report.C42_insert_unchecked"
   ],
   "note": "An operation that arrives with 100 or more entries is cached unchecked (witness C42_insert_unchecked)."
  },
  {
   "property": "C43",
   "status": "proved",
   "theorems": [
    "Verif.Report.C43_flush_exact"
   ],
   "note": ""
  },
  {
   "property": "C44",
   "status": "proved",
   "theorems": [
    "Verif.Quota.C44_quota_serves",
    "Verif.Quota.C44_invalid_rejected",
    "Verif.Quota.C44_quota_total"
   ],
   "note": "The only failure is undefined behaviour in merging the callers' own operations (C23)."
  },
  {
   "property": "C45",
   "status": "proved",
   "theorems": [
    "Verif.Quota.C45_one_in_flight"
   ],
   "note": "Assuming equal signatures mean equal method, consumer and metric names (no collision)."
  },
  {
   "property": "C46",
   "status": "proved",
   "theorems": [
    "Verif.Quota.C46_conservation",
    "Verif.Quota.C46_token_totals",
    "Verif.Quota.C46_false_tokens_discarded",
    "Verif.Quota.C46_false_late_flush"
   ],
   "note": "The exceptions are real (witness)."
  },
  {
   "property": "C47",
   "status": "proved",
   "theorems": [
    "Verif.Quota.C47_negative_absorbs_nothing",
    "Verif.Quota.C47_negative_refresh",
    "Verif.Quota.C47_negative_silent"
   ],
   "note": ""
  },
  {
   "property": "C48",
   "status": "partial",
   "theorems": [
    "Verif.Quota.C48_full_cache_returns_partial",
    "Verif.Quota.C48_false_full_cache",
    "Verif.Quota.C48_false_witness"
   ],
   "note": "False: on a full cache of unexpired entries the call never returns, for every nesting depth; proved: it returns if an entry has expired or FlushAll was called."
  },
  {
   "property": "C49",
   "status": "proved",
   "theorems": [
    "Verif.Client.C49_fail_open",
    "Verif.Quota.C49_response_unblocks",
    "Verif.Quota.C49_refreshes_again"
   ],
   "note": "Clocks must not go backwards; the refresh half assumes no signature collision and is stated for the quota aggregator."
  },
  {
   "property": "C50",
   "status": "proved",
   "theorems": [
    "Verif.Client.C50_exactly_once",
    "Verif.Client.C50_done_reports",
    "Verif.Client.C50_sent_as_called",
    "Verif.Client.C50_completed_answered"
   ],
   "note": ""
  },
  {
   "property": "C51",
   "status": "proved",
   "theorems": [
    "Verif.Client.C51_statistics"
   ],
   "note": "Overflow of the 64-bit counters is not modelled."
  },
  {
   "property": "C52",
   "status": "proved",
   "theorems": [
    "Verif.Client.C52_error_not_cached"
   ],
   "note": ""
  },
  {
   "property": "C53",
   "status": "proved",
   "theorems": [
    "Verif.Client.C53_all_sent",
    "Verif.Client.C53_log_entries",
    "Verif.Client.C53_delta_totals",
    "Verif.Client.C53_destroy_returns",
    "Verif.Client.C53_nothing_after"
   ],
   "note": "Report data: log entries and integer delta metrics."
  },
  {
   "property": "C54",
   "status": "partial",
   "theorems": [
    "Verif.Client.C54_late_completion_partial",
    "Verif.Client.C54_false_flushed_quota",
    "Verif.Client.C54_false"
   ],
   "note": "False for allocation requests sent by flushes: their completion always uses the destroyed client; proved for all others."
  },
  {
   "property": "C55",
   "status": "proved",
   "theorems": [
    "Verif.Client.C55_timer"
   ],
   "note": "Intervals are ints."
  },
  {
   "property": "C56",
   "status": "partial",
   "theorems": [
    "Verif.Client.C56_empty_transport_partial",
    "Verif.Client.C56_never_called_partial",
    "Verif.Client.C56_false"
   ],
   "note": "False: a flush calls an empty default transport (witness); proved: a call with an empty transport, and that nothing empty is called when all default transports are given."
  },
  {
   "property": "C57",
   "status": "proved",
   "theorems": [
    "Verif.Conc.C57_linearizable",
    "Verif.Conc.C57_numbers",
    "Verif.Conc.C57_report",
    "Verif.Conc.C57_check",
    "Verif.Conc.C57_quota",
    "Verif.Conc.C57_delivered"
   ],
   "note": "Atomic steps are the lock operations, the body of each method in one step per emitted item, and the callbacks; the memory is sequentially consistent (the code has no data shared outside its locks)."
  },
  {
   "property": "C58",
   "status": "proved",
   "theorems": [
    "Verif.Conc.C58_callback_unlocked",
    "Verif.Conc.C58_callback_exclusive",
    "Verif.Conc.C58_no_deadlock"
   ],
   "note": "C59_false_threads shows that the assumption about the callback is needed."
  },
  {
   "property": "C59",
   "status": "partial",
   "theorems": [
    "Verif.Client.C59_no_deadlock_partial",
    "Verif.Client.C59_false",
    "Verif.Conc.C59_false_threads"
   ],
   "note": "False (witness); proved: no self-deadlock if no transport completes in place."
  },
  {
   "property": "C60",
   "status": "proved",
   "theorems": [
    "Verif.C60_md5_chunking",
    "Verif.C60_debugString_injective"
   ],
   "note": ""
  },
  {
   "property": "C61",
   "status": "partial",
   "theorems": [
    "Verif.Http.C61_convert_partial",
    "Verif.Http.C61_status_partial",
    "Verif.Http.C61_false_codes",
    "Verif.Http.C61_false_transfer",
    "Verif.Http.C61_false_check",
    "Verif.Http.C61_false_cached"
   ],
   "note": "False: no specific code gets its status, failed transfers are reported as successes, and refused checks are let through and cached; proved: what is reported instead, and that no code is mistaken for a success by the conversion."
  },
  {
   "property": "C62",
   "status": "proved",
   "theorems": [
    "Verif.C62_delta_distribution"
   ],
   "note": "Exact arithmetic (reals)."
  },
  {
   "property": "C63",
   "status": "proved",
   "theorems": [
    "Verif.C63_delta_double_sum"
   ],
   "note": ""
  },
  {
   "property": "C64",
   "status": "proved",
   "theorems": [
    "Verif.Report.C64_report_returns",
    "Verif.Report.C64_report_flush_returns"
   ],
   "note": ""
  },
  {
   "property": "C65",
   "status": "proved",
   "theorems": [
    "Verif.Report.C65_bounded"
   ],
   "note": ""
  },
  {
   "property": "C66",
   "status": "proved",
   "theorems": [
    "Verif.Check.C66_stored",
    "Verif.Check.C66_served",
    "Verif.Check.C66_evicted_only"
   ],
   "note": ""
  },
  {
   "property": "C67",
   "status": "partial",
   "theorems": [
    "Verif.Check.C67_cold_miss_partial",
    "Verif.Check.C67_false_counted_twice"
   ],
   "note": "False for a check told to refresh a cached positive response (witness); proved for checks that find nothing cached."
  },
  {
   "property": "C68",
   "status": "proved",
   "theorems": [
    "Verif.Check.C68_check_returns"
   ],
   "note": ""
  },
  {
   "property": "C69",
   "status": "proved",
   "theorems": [
    "Verif.Check.C69_options"
   ],
   "note": "The overflow at INT_MAX is part of the theorem."
  },
  {
   "property": "C70",
   "status": "proved",
   "theorems": [
    "Verif.Quota.C70_kept_until_expiration"
   ],
   "note": ""
  },
  {
   "property": "C71",
   "status": "partial",
   "theorems": [
    "Verif.Quota.C71_refresh_rate_partial",
    "Verif.Quota.C71_false_too_soon"
   ],
   "note": "False when operations are pending (witness); proved when none are."
  },
  {
   "property": "C72",
   "status": "partial",
   "theorems": [
    "Verif.Quota.C72_false_charged_twice",
    "Verif.Quota.C72_covered_partial",
    "Verif.Quota.C72_not_resent_partial"
   ],
   "note": "False (witness); proved: what is sent is covered by what was asked for plus what was sent again by refreshes without pending operations (integer, non-negative amounts, no signature collision)."
  },
  {
   "property": "C73",
   "status": "partial",
   "theorems": [
    "Verif.Quota.C73_false_after_flushAll",
    "Verif.Quota.C73_empties_partial",
    "Verif.Quota.C73_like_new_partial"
   ],
   "note": "False (witness); proved: FlushAll empties the cache, and calls after it return and send what they do on a new aggregator for at least the refresh interval, while the cache has room."
  },
  {
   "property": "C74",
   "status": "proved",
   "theorems": [
    "Verif.Client.C74_no_leak"
   ],
   "note": ""
  },
  {
   "property": "C75",
   "status": "proved",
   "theorems": [
    "Verif.Client.C75_check_answer"
   ],
   "note": ""
  },
  {
   "property": "C76",
   "status": "proved",
   "theorems": [
    "Verif.Client.C76_quota_answer"
   ],
   "note": "Clocks must not go backwards."
  },
  {
   "property": "C77",
   "status": "proved",
   "theorems": [
    "Verif.Client.C77_returns"
   ],
   "note": "Quota calls are the subject of C44 and C48."
  },
  {
   "property": "C78",
   "status": "proved",
   "theorems": [
    "Verif.Conc.C78_all_return",
    "Verif.Conc.C78_report",
    "Verif.Conc.C78_check",
    "Verif.Conc.C78_quota"
   ],
   "note": "The undefined behaviour that remains is that of C64, C68, C44 and C48."
  },
  {
   "property": "C79",
   "status": "partial",
   "theorems": [
    "Verif.Http.C79_sent_partial",
    "Verif.Http.C79_false_truncated"
   ],
   "note": "False for every request whose serialization has a zero byte; proved for the others."
  },
  {
   "property": "C80",
   "status": "proved",
   "theorems": [
    "Verif.Lru.C80_still_in_use",
    "Verif.Lru.C80_deferred",
    "Verif.Lru.C80_last_use_time"
   ],
   "note": ""
  },
  {
   "property": "C81",
   "status": "proved",
   "theorems": [
    "Verif.Lru.C81_removed_exactly",
    "Verif.Lru.C81_deleted_exactly"
   ],
   "note": ""
  },
  {
   "property": "C82",
   "status": "partial",
   "theorems": [
    "Verif.Lru.C82_switch_partial",
    "Verif.Lru.C82_limit_partial",
    "Verif.Lru.C82_refused",
    "Verif.Lru.C82_false_mode_switch",
    "Verif.Lru.C82_false_mode_switch_stuck"
   ],
   "note": "False with pinned entries (witnesses); proved whenever no pins are held. Setting the limit anew in the same mode is proved with pinned entries too, in age mode unless one of them had expired and would not have under the new limit. A debug build needs a clock that does not go backwards (C30)."
  },
  {
   "property": "C83",
   "status": "proved",
   "theorems": [
    "Verif.Lru.Ptr.C83_legal_call_succeeds",
    "Verif.Lru.Ptr.C83_configure_succeeds",
    "Verif.Lru.Ptr.C83_reconfigure_succeeds",
    "Verif.Lru.Ptr.C83_limit_succeeds",
    "Verif.Lru.Ptr.C83_refines",
    "Verif.Lru.Ptr.C83_refined",
    "Verif.Lru.Ptr.C83_no_leak",
    "Verif.Lru.Ptr.C83_eviction_list",
    "Verif.Lru.Ptr.C83_deferred_lists",
    "Verif.Lru.Ptr.C83_queries"
   ],
   "note": "Deleters that act on their own state only.  A debug build needs a clock that does not go backwards (C30)."
  },
  {
   "property": "C84",
   "status": "proved",
   "theorems": [
    "Verif.Client.C84_reports_sent"
   ],
   "note": "Clocks must not go backwards."
  },
  {
   "property": "C85",
   "status": "proved",
   "theorems": [
    "Verif.Check.C85_flush_expires",
    "Verif.Client.C85_tick_expires"
   ],
   "note": "Clocks must not go backwards."
  },
  {
   "property": "C86",
   "status": "proved",
   "theorems": [
    "Verif.Quota.C86_flush_sends",
    "Verif.Client.C86_tick_sends"
   ],
   "note": "Clocks must not go backwards."
  },
  {
   "property": "C87",
   "status": "proved",
   "theorems": [
    "Verif.Threads.C87_exactly_once",
    "Verif.Threads.C87_all_answered",
    "Verif.Threads.C87_done_reports",
    "Verif.Threads.C87_sent_as_called",
    "Verif.Threads.C87_completed_once"
   ],
   "note": ""
  },
  {
   "property": "C88",
   "status": "proved",
   "theorems": [
    "Verif.Threads.C88_not_ahead",
    "Verif.Threads.C88_statistics"
   ],
   "note": ""
  },
  {
   "property": "C89",
   "status": "partial",
   "theorems": [
    "Verif.Threads.C89_memory_safe_partial",
    "Verif.Threads.C89_no_leak",
    "Verif.Threads.C89_false_running"
   ],
   "note": "Proved except for the completions of flushed quota requests after or during the destruction (witness here and in C54), empty default transports (C56), integer overflow in the aggregators (C64, C68) and quota calls (C48). Clocks must not go backwards."
  },
  {
   "property": "C90",
   "status": "proved",
   "theorems": [
    "Verif.Threads.C90_returns",
    "Verif.Threads.C90_waits",
    "Verif.Threads.C90_blocked"
   ],
   "note": ""
  },
  {
   "property": "C91",
   "status": "partial",
   "theorems": [
    "Verif.Threads.C91_log_entries",
    "Verif.Threads.C91_delta_totals",
    "Verif.Threads.C91_all_sent_partial",
    "Verif.Threads.C91_false_timer"
   ],
   "note": "The last part is false for a timer whose Stop does not wait for the function it is calling (witness), which the interface allows; proved for timers that wait."
  },
  {
   "property": "C92",
   "status": "partial",
   "theorems": [
    "Verif.Threads.C92_finite",
    "Verif.Threads.C92_no_deadlock_partial",
    "Verif.Threads.C92_comes_to_rest_partial",
    "Verif.Threads.C92_all_return_partial",
    "Verif.Threads.C92_false_reentrant"
   ],
   "note": "False when a transport called by a flush callback calls the client (witness); proved when such transports only return or complete flushed checks and reports.  Executions may also end in a fault (C89)."
  },
  {
   "property": "C93",
   "status": "proved",
   "theorems": [
    "Verif.Threads.C93_nothing_after"
   ],
   "note": ""
  },
  {
   "property": "C94",
   "status": "proved",
   "theorems": [
    "Verif.Threads.C94_check_answer",
    "Verif.Threads.C94_quota_answer"
   ],
   "note": "The quota part needs clocks that do not go backwards."
  },
  {
   "property": "C95",
   "status": "proved",
   "theorems": [
    "Verif.Threads.C95_local",
    "Verif.Threads.C95_sent",
    "Verif.Threads.C95_important_sent",
    "Verif.Threads.C95_held_answered",
    "Verif.Threads.C95_refused_answered"
   ],
   "note": ""
  },
  {
   "property": "C96",
   "status": "partial",
   "theorems": [
    "Verif.Threads.C96_direct_partial",
    "Verif.Threads.C96_false_kept"
   ],
   "note": "The last part is false: the response to a high importance check is kept (witness).  Proved: it is sent exactly once, as it is, and never answered from a cache."
  },
  {
   "property": "C97",
   "status": "proved",
   "theorems": [
    "Verif.Threads.C97_reports_sent",
    "Verif.Threads.C97_log_entries_sent"
   ],
   "note": ""
  },
  {
   "property": "C98",
   "status": "partial",
   "theorems": [
    "Verif.Threads.C98_conserved",
    "Verif.Threads.C98_all_sent_partial",
    "Verif.Threads.C98_false_dropped"
   ],
   "note": "The conservation is proved in full. That all is sent when the destructor returns is false for the code (C98_false_dropped); proved when no thread holds or dropped a check of the cache."
  },
  {
   "property": "C99",
   "status": "partial",
   "theorems": [
    "Verif.Ieee.C99_milliseconds_partial",
    "Verif.Ieee.C99_negative",
    "Verif.Ieee.C99_defined",
    "Verif.Ieee.C99_infinite",
    "Verif.Ieee.C99_monotone",
    "Verif.Ieee.C99_false_nan",
    "Verif.Ieee.C99_false_one_short"
   ],
   "note": "One microsecond can be lost, and NaN leads to an undefined conversion (witnesses); the rest is proved."
  },
  {
   "property": "C100",
   "status": "partial",
   "theorems": [
    "Verif.Ieee.C100_linear_partial",
    "Verif.Ieee.C100_add_sample_partial",
    "Verif.Ieee.C100_explicit",
    "Verif.Ieee.C100_exponential_partial",
    "Verif.Ieee.C100_false_overflow",
    "Verif.Ieee.C100_false_nan_width",
    "Verif.Ieee.C100_false_exponential_overflow",
    "Verif.Ieee.C100_false_exponential_growth"
   ],
   "note": "False when the distance to the offset or the quotient by the scale overflows, for a NaN width, and for growth factors next to one (witnesses). log2 is a parameter, assumed monotone, zero at one and at most 1024. Explicit bounds: proved for bounds other than NaN."
  },
  {
   "property": "C101",
   "status": "partial",
   "theorems": [
    "Verif.Ieee.C101_within_one_partial",
    "Verif.Ieee.C101_false_adjacent",
    "Verif.Ieee.C101_false_far"
   ],
   "note": "False by one bucket, and by more for large offsets (witnesses)."
  },
  {
   "property": "C102",
   "status": "proved",
   "theorems": [
    "Verif.Ieee.C102_linear",
    "Verif.Ieee.C102_exponential",
    "Verif.Ieee.C102_explicit"
   ],
   "note": "log2 is a parameter, assumed monotone, zero at one and positive at the growth factor."
  },
  {
   "property": "C103",
   "status": "partial",
   "theorems": [
    "Verif.Ieee.C103_merged_error_partial",
    "Verif.Ieee.C103_mean_error_partial",
    "Verif.Ieee.C103_false_outside"
   ],
   "note": "The mean can exceed the maximum (witness); error bound, minimum and maximum are proved for up to 2^40 samples of at most 2^900."
  },
  {
   "property": "C104",
   "status": "partial",
   "theorems": [
    "Verif.Ieee.C104_not_negative_partial",
    "Verif.Ieee.C104_false_overflow",
    "Verif.Ieee.C104_false_foreign"
   ],
   "note": "False after an overflow of the sum (witness); proved for finite means and up to 2^53 samples."
  },
  {
   "property": "C105",
   "status": "proved",
   "theorems": [
    "Verif.Ieee.C105_report_flush",
    "Verif.Ieee.C105_check_flush",
    "Verif.Ieee.C105_timer_reports"
   ],
   "note": ""
  },
  {
   "property": "C106",
   "status": "proved",
   "theorems": [
    "Verif.Threads.C106_ledger",
    "Verif.Threads.C106_tokens",
    "Verif.Threads.C106_false_destroyed",
    "Verif.Threads.C106_false_dropped"
   ],
   "note": "The account of all granted tokens is proved in full. The witnesses show that tokens are discarded and dropped without a negative response."
  },
  {
   "property": "C107",
   "status": "proved",
   "theorems": [
    "Verif.Check.C107_check_same",
    "Verif.Check.C107_check_same_back",
    "Verif.Check.C107_check_no_fault",
    "Verif.Check.C107_check_objects",
    "Verif.Check.C107_check_no_leak",
    "Verif.Report.C107_report_same",
    "Verif.Report.C107_report_same_back",
    "Verif.Report.C107_report_no_fault",
    "Verif.Report.C107_report_objects",
    "Verif.Report.C107_report_no_leak",
    "Verif.Quota.C107_quota_same",
    "Verif.Quota.C107_quota_no_fault",
    "Verif.Quota.C107_quota_no_leak"
   ],
   "note": "Check and report: a debug build needs a clock that does not go backwards. Quota: clocks must not go backwards; a call for a new signature on a full cache may not return (C48)."
  },
  {
   "property": "C108",
   "status": "proved",
   "theorems": [
    "Verif.Threads.C108_expired",
    "Verif.Threads.C108_sent",
    "Verif.Threads.C108_log_entries"
   ],
   "note": ""
  },
  {
   "property": "C109",
   "status": "proved",
   "theorems": [
    "Verif.Threads.C109_served"
   ],
   "note": ""
  },
  {
   "property": "C110",
   "status": "proved",
   "theorems": [
    "Verif.Threads.C110_quotas_fresh"
   ],
   "note": ""
  },
  {
   "property": "C111",
   "status": "partial",
   "theorems": [
    "Verif.Ieee.C111_same_layout_partial",
    "Verif.Ieee.C111_false_infinite",
    "Verif.Ieee.C111_false_direction"
   ],
   "note": "False for infinite bounds and for nearly equal layouts (witnesses); proved for finite layouts."
  },
  {
   "property": "C112",
   "status": "partial",
   "theorems": [
    "Verif.Threads.C112_not_after_done_partial",
    "Verif.Threads.C112_not_after_return",
    "Verif.Threads.C112_false_report"
   ],
   "note": "False for the request of a report given to a transport that completes in place (witness); everything else is proved."
  },
  {
   "property": "C113",
   "status": "partial",
   "theorems": [
    "Verif.Threads.C113_alive_partial",
    "Verif.Threads.C113_false_flushed",
    "Verif.Threads.C113_false_report"
   ],
   "note": "False for requests the client does not copy: checks and reports sent from the cache, and Report calls (witnesses)."
  },
  {
   "property": "C114",
   "status": "partial",
   "theorems": [
    "Verif.Threads.C114_between_partial",
    "Verif.Threads.C114_not_ahead_partial",
    "Verif.Threads.C114_exact_partial",
    "Verif.Threads.C114_false_snapshot"
   ],
   "note": "False as a snapshot (witness); proved counter by counter, and as a whole if nothing happens meanwhile."
  },
  {
   "property": "C115",
   "status": "partial",
   "theorems": [
    "Verif.Ieee.C115_ssd_error_partial",
    "Verif.Ieee.C115_false_equal",
    "Verif.Ieee.C115_false_zero"
   ],
   "note": "Zero neither exactly for equal samples (witnesses); error bound proved for up to 2^40 samples of at most 2^480."
  },
  {
   "property": "C116",
   "status": "proved",
   "theorems": [
    "Verif.Ieee.C116_double_totals",
    "Verif.Ieee.C116_threads",
    "Verif.Ieee.C116_all_sent",
    "Verif.Ieee.C116_false_exact",
    "Verif.Ieee.C116_false_overflow"
   ],
   "note": "The witnesses show that the total is not exact and that the bound on the total is needed."
  },
  {
   "property": "C117",
   "status": "partial",
   "theorems": [
    "Verif.Ieee.C117_samples_kept_partial",
    "Verif.Ieee.C117_threads_partial",
    "Verif.Ieee.C117_all_sent_partial",
    "Verif.Ieee.C117_false_infinite"
   ],
   "note": "False if the layouts differ (C22) or have an infinite bound (witness); proved for one finite layout."
  },
  {
   "property": "C118",
   "status": "proved",
   "theorems": [
    "Verif.Ieee.C118_statistics",
    "Verif.Ieee.C118_threads",
    "Verif.Ieee.C118_all_sent"
   ],
   "note": "For up to 2^40 samples of at most 2^480 in distributions filled by the helper functions with one finite layout."
  },
  {
   "property": "C119",
   "status": "partial",
   "theorems": [
    "Verif.Ieee.C119_absorbed",
    "Verif.Ieee.C119_conserved",
    "Verif.Ieee.C119_all_sent_partial"
   ],
   "note": "The conservation is proved in full. That all is sent when the destructor returns fails as in C98 (C98_false_dropped); proved when no thread holds or dropped a check of the cache."
  },
  {
   "property": "C120",
   "status": "proved",
   "theorems": [
    "Verif.C120_report_cache",
    "Verif.C120_check_cache",
    "Verif.C120_reports",
    "Verif.C120_all_sent",
    "Verif.C120_checks",
    "Verif.C120_checks_all_sent_partial"
   ],
   "note": "C120_checks_all_sent_partial goes beyond the claim: what checks leave when the destructor returns, as far as C98 allows. Agreement in name, consumer and labels up to hash collisions and zero bytes, as in C12; for checks, agreement of the signature."
  },
  {
   "property": "C121",
   "status": "partial",
   "theorems": [
    "Verif.Ieee.C121_near_partial",
    "Verif.Ieee.C121_add_sample_partial",
    "Verif.Ieee.C121_within_one_partial",
    "Verif.Ieee.C121_false_bound"
   ],
   "note": "False for samples at a bound, for every correctly rounded log2 (witness); such a log2 exists and is accurate (nearest_exists, Nearest.accurate). Proved up to a relative error of 2^-37."
  },
  {
   "property": "C122",
   "status": "partial",
   "theorems": [
    "Verif.Lru.C122_age_partial",
    "Verif.Lru.Ptr.C122_age_pointers_partial",
    "Verif.Lru.C122_iterates",
    "Verif.Lru.C122_false_in_use",
    "Verif.Lru.C122_false_overflow"
   ],
   "note": "Iteration is proved in full. The age is false if values are in use in LRU mode and overflows after 107 days (witnesses); proved of idle values below that."
  },
  {
   "property": "C123",
   "status": "proved",
   "theorems": [
    "Verif.Lru.Ptr.C123_debug_output"
   ],
   "note": "The calls of DebugIterator; the text around them is not modelled."
  },
  {
   "property": "C124",
   "status": "proved",
   "theorems": [
    "Verif.Threads.C124_fresh"
   ],
   "note": ""
  },
  {
   "property": "C125",
   "status": "proved",
   "theorems": [
    "Verif.Threads.C125_one_in_flight",
    "Verif.Threads.C125_false_slow"
   ],
   "note": "C125_false_slow shows that the limit of time in the claim is needed."
  },
  {
   "property": "C126",
   "status": "partial",
   "theorems": [
    "Verif.Threads.C126_alone",
    "Verif.Threads.C126_carried_partial",
    "Verif.Threads.C126_false_quota_general",
    "Verif.Threads.C126_false_quota"
   ],
   "note": "False for Quota while its cache is on (C126_false_quota, and C126_false_quota_general for all schedules); Reports that the cache holds are sent with the default transport too."
  },
  {
   "property": "C127",
   "status": "proved",
   "theorems": [
    "Verif.Quota.C127_expires",
    "Verif.Quota.C127_asks_again",
    "Verif.Threads.C127_threads"
   ],
   "note": "C127_threads is the same for a client under every schedule. No two operations of different identity with one signature, as in C45 and C70."
  }
 ]
}
