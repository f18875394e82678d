import Verif.Props.AggregatorPointers
import Verif.Props.CheckAggregator
import Verif.Props.CheckDoubles
import Verif.Props.Client
import Verif.Props.ClientTimer
import Verif.Props.Concurrency
import Verif.Props.Distribution
import Verif.Props.Double
import Verif.Props.DoubleBuckets
import Verif.Props.DoubleExponential
import Verif.Props.DoubleLimits
import Verif.Props.DoubleMean
import Verif.Props.DoubleMerge
import Verif.Props.DoubleSsd
import Verif.Props.HttpSample
import Verif.Props.LruAge
import Verif.Props.LruCache
import Verif.Props.LruDebug
import Verif.Props.LruPointers
import Verif.Props.LruQueries
import Verif.Props.Money
import Verif.Props.OperationAggregator
import Verif.Props.QuotaAggregator
import Verif.Props.QuotaExpiry
import Verif.Props.QuotaFlushAll
import Verif.Props.QuotaOperationAggregator
import Verif.Props.QuotaTimer
import Verif.Props.QuotaTokens
import Verif.Props.ReportAggregator
import Verif.Props.ReportDoubles
import Verif.Props.Signature
import Verif.Props.Summaries
import Verif.Props.ThreadAnswers
import Verif.Props.ThreadChecks
import Verif.Props.ThreadExamples
import Verif.Props.ThreadExpiry
import Verif.Props.ThreadFresh
import Verif.Props.ThreadInFlight
import Verif.Props.ThreadObjects
import Verif.Props.ThreadProgress
import Verif.Props.ThreadQuotaExpiry
import Verif.Props.ThreadQuotaTimer
import Verif.Props.ThreadQuotas
import Verif.Props.ThreadServed
import Verif.Props.ThreadStatistics
import Verif.Props.ThreadTimer
import Verif.Props.ThreadTransports
import Verif.Props.Threads
/-
Axioms used by every theorem named in MANIFEST.json (generated by tools/gen_manifest.py).
-/
#print axioms Verif.Money.C01_validateMoney_spec
#print axioms Verif.Money.C02_tryAdd_exact
#print axioms Verif.Money.C03_tryAdd_overflow_partial
#print axioms Verif.Money.C03_false_spurious_overflow
#print axioms Verif.Money.C03_false_undefined
#print axioms Verif.Money.C04_tryAdd_comm
#print axioms Verif.Money.C04_currency_mismatch
#print axioms Verif.Money.C04_saturates
#print axioms Verif.Dist.C05_samples_counted
#print axioms Verif.Dist.C05_explicit_total
#print axioms Verif.Dist.C07_samples_described
#print axioms Verif.Dist.C06_bucket_contains_sample_partial
#print axioms Verif.Dist.C06_false_exponential_cast
#print axioms Verif.Dist.C08_merge_describes
#print axioms Verif.Dist.C09_merge_rejects
#print axioms Verif.Dist.C09_tolerance
#print axioms Verif.Dist.C09_merge_adds
#print axioms Verif.Dist.C09_merge_defined
#print axioms Verif.Dist.C10_initLinear
#print axioms Verif.Dist.C10_initExponential
#print axioms Verif.Dist.C10_initExplicit
#print axioms Verif.Dist.C10_init_describes_partial
#print axioms Verif.Dist.C10_false_size_overflow
#print axioms Verif.Dist.C10_false_empty_explicit
#print axioms Verif.Dist.C10_false_explicit_twice
#print axioms Verif.C11_report_signature_invariant
#print axioms Verif.C11_metric_value_signature_invariant
#print axioms Verif.C11_quota_signature_invariant
#print axioms Verif.C11_check_signature_invariant
#print axioms Verif.C12_report_signature_injective
#print axioms Verif.C13_check_signature_exact
#print axioms Verif.C13_check_signature_injective_partial
#print axioms Verif.C13_check_signature_injective_no_metrics
#print axioms Verif.C13_false_label_metric_confusion
#print axioms Verif.C13_false_duplicate_metric
#print axioms Verif.C14_quota_signature_iff
#print axioms Verif.C15_metric_value_signature_iff
#print axioms Verif.C15_metric_value_signature_collision
#print axioms Verif.C16_delta_int_sum
#print axioms Verif.C16_only_overflow
#print axioms Verif.C16_defined
#print axioms Verif.C16_intermediate_overflow
#print axioms Verif.C17_time_window
#print axioms Verif.C18_gauge_latest
#print axioms Verif.C19_log_entries
#print axioms Verif.C20_shape
#print axioms Verif.C21_order_independent
#print axioms Verif.C22_other_types_dropped
#print axioms Verif.C22_distribution_rejected
#print axioms Verif.C23_quota_sum
#print axioms Verif.C23_extra_values_dropped
#print axioms Verif.C23_false_empty_metric
#print axioms Verif.Lru.C24_size_exact
#print axioms Verif.Lru.C24_entries_pinned_exact
#print axioms Verif.Lru.C25_overfull_all_pinned
#print axioms Verif.Lru.C25_unpinned_within_capacity
#print axioms Verif.Lru.C26_deleted_once
#print axioms Verif.Lru.C26_pinned_not_deleted
#print axioms Verif.Lru.C26_deleted_nodup
#print axioms Verif.Lru.C26_deletion_justified
#print axioms Verif.Lru.C26_emptied_all_deleted
#print axioms Verif.Lru.C27_lookup_current
#print axioms Verif.Lru.C27_lookup_hit
#print axioms Verif.Lru.C27_insert_present
#print axioms Verif.Lru.C28_evicts_least_recent
#print axioms Verif.Lru.C28_evicts_no_more_than_needed
#print axioms Verif.Lru.C29_lookup_not_expired
#print axioms Verif.Lru.C29_removeExpired_exact
#print axioms Verif.Lru.C29_false_pinned
#print axioms Verif.Lru.C30_legal_call_succeeds
#print axioms Verif.Lru.C30_configure_succeeds
#print axioms Verif.Lru.C30_false_mixed_options_corrupt
#print axioms Verif.Lru.C30_false_mixed_options_stuck
#print axioms Verif.Lru.C30_false_backwards_clock
#print axioms Verif.Check.C31_served_latest
#print axioms Verif.Check.C32_bypass
#print axioms Verif.Check.C33_served_fresh
#print axioms Verif.Check.C34_rate_limited
#print axioms Verif.Check.C35_not_idle_partial
#print axioms Verif.Check.C35_false_stale_response
#print axioms Verif.Check.C36_groups
#print axioms Verif.Check.C36_log_entries
#print axioms Verif.Check.C36_delta_totals
#print axioms Verif.Check.C36_flushAll_empties
#print axioms Verif.Check.C36_requests_well_formed
#print axioms Verif.Check.C37_bounded
#print axioms Verif.Report.C38_log_entries
#print axioms Verif.Report.C38_delta_totals
#print axioms Verif.Report.C38_flushAll_empties
#print axioms Verif.Report.C41_groups
#print axioms Verif.Report.C39_requests_well_formed
#print axioms Verif.Report.C40_pass_through
#print axioms Verif.Report.C42_merged_below_limit
#print axioms Verif.Report.C42_insert_unchecked
#print axioms Verif.Report.C43_flush_exact
#print axioms Verif.Quota.C44_quota_serves
#print axioms Verif.Quota.C44_invalid_rejected
#print axioms Verif.Quota.C44_quota_total
#print axioms Verif.Quota.C45_one_in_flight
#print axioms Verif.Quota.C46_conservation
#print axioms Verif.Quota.C46_token_totals
#print axioms Verif.Quota.C46_false_tokens_discarded
#print axioms Verif.Quota.C46_false_late_flush
#print axioms Verif.Quota.C47_negative_absorbs_nothing
#print axioms Verif.Quota.C47_negative_refresh
#print axioms Verif.Quota.C47_negative_silent
#print axioms Verif.Quota.C48_full_cache_returns_partial
#print axioms Verif.Quota.C48_false_full_cache
#print axioms Verif.Quota.C48_false_witness
#print axioms Verif.Client.C49_fail_open
#print axioms Verif.Quota.C49_response_unblocks
#print axioms Verif.Quota.C49_refreshes_again
#print axioms Verif.Client.C50_exactly_once
#print axioms Verif.Client.C50_done_reports
#print axioms Verif.Client.C50_sent_as_called
#print axioms Verif.Client.C50_completed_answered
#print axioms Verif.Client.C51_statistics
#print axioms Verif.Client.C52_error_not_cached
#print axioms Verif.Client.C53_all_sent
#print axioms Verif.Client.C53_log_entries
#print axioms Verif.Client.C53_delta_totals
#print axioms Verif.Client.C53_destroy_returns
#print axioms Verif.Client.C53_nothing_after
#print axioms Verif.Client.C54_late_completion_partial
#print axioms Verif.Client.C54_false_flushed_quota
#print axioms Verif.Client.C54_false
#print axioms Verif.Client.C55_timer
#print axioms Verif.Client.C56_empty_transport_partial
#print axioms Verif.Client.C56_never_called_partial
#print axioms Verif.Client.C56_false
#print axioms Verif.Conc.C57_linearizable
#print axioms Verif.Conc.C57_numbers
#print axioms Verif.Conc.C57_report
#print axioms Verif.Conc.C57_check
#print axioms Verif.Conc.C57_quota
#print axioms Verif.Conc.C57_delivered
#print axioms Verif.Conc.C58_callback_unlocked
#print axioms Verif.Conc.C58_callback_exclusive
#print axioms Verif.Conc.C58_no_deadlock
#print axioms Verif.Client.C59_no_deadlock_partial
#print axioms Verif.Client.C59_false
#print axioms Verif.Conc.C59_false_threads
#print axioms Verif.C60_md5_chunking
#print axioms Verif.C60_debugString_injective
#print axioms Verif.Http.C61_convert_partial
#print axioms Verif.Http.C61_status_partial
#print axioms Verif.Http.C61_false_codes
#print axioms Verif.Http.C61_false_transfer
#print axioms Verif.Http.C61_false_check
#print axioms Verif.Http.C61_false_cached
#print axioms Verif.C62_delta_distribution
#print axioms Verif.C63_delta_double_sum
#print axioms Verif.Report.C64_report_returns
#print axioms Verif.Report.C64_report_flush_returns
#print axioms Verif.Report.C65_bounded
#print axioms Verif.Check.C66_stored
#print axioms Verif.Check.C66_served
#print axioms Verif.Check.C66_evicted_only
#print axioms Verif.Check.C67_cold_miss_partial
#print axioms Verif.Check.C67_false_counted_twice
#print axioms Verif.Check.C68_check_returns
#print axioms Verif.Check.C69_options
#print axioms Verif.Quota.C70_kept_until_expiration
#print axioms Verif.Quota.C71_refresh_rate_partial
#print axioms Verif.Quota.C71_false_too_soon
#print axioms Verif.Quota.C72_false_charged_twice
#print axioms Verif.Quota.C72_covered_partial
#print axioms Verif.Quota.C72_not_resent_partial
#print axioms Verif.Quota.C73_false_after_flushAll
#print axioms Verif.Quota.C73_empties_partial
#print axioms Verif.Quota.C73_like_new_partial
#print axioms Verif.Client.C74_no_leak
#print axioms Verif.Client.C75_check_answer
#print axioms Verif.Client.C76_quota_answer
#print axioms Verif.Client.C77_returns
#print axioms Verif.Conc.C78_all_return
#print axioms Verif.Conc.C78_report
#print axioms Verif.Conc.C78_check
#print axioms Verif.Conc.C78_quota
#print axioms Verif.Http.C79_sent_partial
#print axioms Verif.Http.C79_false_truncated
#print axioms Verif.Lru.C80_still_in_use
#print axioms Verif.Lru.C80_deferred
#print axioms Verif.Lru.C80_last_use_time
#print axioms Verif.Lru.C81_removed_exactly
#print axioms Verif.Lru.C81_deleted_exactly
#print axioms Verif.Lru.C82_switch_partial
#print axioms Verif.Lru.C82_limit_partial
#print axioms Verif.Lru.C82_refused
#print axioms Verif.Lru.C82_false_mode_switch
#print axioms Verif.Lru.C82_false_mode_switch_stuck
#print axioms Verif.Lru.Ptr.C83_legal_call_succeeds
#print axioms Verif.Lru.Ptr.C83_configure_succeeds
#print axioms Verif.Lru.Ptr.C83_reconfigure_succeeds
#print axioms Verif.Lru.Ptr.C83_limit_succeeds
#print axioms Verif.Lru.Ptr.C83_refines
#print axioms Verif.Lru.Ptr.C83_refined
#print axioms Verif.Lru.Ptr.C83_no_leak
#print axioms Verif.Lru.Ptr.C83_eviction_list
#print axioms Verif.Lru.Ptr.C83_deferred_lists
#print axioms Verif.Lru.Ptr.C83_queries
#print axioms Verif.Client.C84_reports_sent
#print axioms Verif.Check.C85_flush_expires
#print axioms Verif.Client.C85_tick_expires
#print axioms Verif.Quota.C86_flush_sends
#print axioms Verif.Client.C86_tick_sends
#print axioms Verif.Threads.C87_exactly_once
#print axioms Verif.Threads.C87_all_answered
#print axioms Verif.Threads.C87_done_reports
#print axioms Verif.Threads.C87_sent_as_called
#print axioms Verif.Threads.C87_completed_once
#print axioms Verif.Threads.C88_not_ahead
#print axioms Verif.Threads.C88_statistics
#print axioms Verif.Threads.C89_memory_safe_partial
#print axioms Verif.Threads.C89_no_leak
#print axioms Verif.Threads.C89_false_running
#print axioms Verif.Threads.C90_returns
#print axioms Verif.Threads.C90_waits
#print axioms Verif.Threads.C90_blocked
#print axioms Verif.Threads.C91_log_entries
#print axioms Verif.Threads.C91_delta_totals
#print axioms Verif.Threads.C91_all_sent_partial
#print axioms Verif.Threads.C91_false_timer
#print axioms Verif.Threads.C92_finite
#print axioms Verif.Threads.C92_no_deadlock_partial
#print axioms Verif.Threads.C92_comes_to_rest_partial
#print axioms Verif.Threads.C92_all_return_partial
#print axioms Verif.Threads.C92_false_reentrant
#print axioms Verif.Threads.C93_nothing_after
#print axioms Verif.Threads.C94_check_answer
#print axioms Verif.Threads.C94_quota_answer
#print axioms Verif.Threads.C95_local
#print axioms Verif.Threads.C95_sent
#print axioms Verif.Threads.C95_important_sent
#print axioms Verif.Threads.C95_held_answered
#print axioms Verif.Threads.C95_refused_answered
#print axioms Verif.Threads.C96_direct_partial
#print axioms Verif.Threads.C96_false_kept
#print axioms Verif.Threads.C97_reports_sent
#print axioms Verif.Threads.C97_log_entries_sent
#print axioms Verif.Threads.C98_conserved
#print axioms Verif.Threads.C98_all_sent_partial
#print axioms Verif.Threads.C98_false_dropped
#print axioms Verif.Ieee.C99_milliseconds_partial
#print axioms Verif.Ieee.C99_negative
#print axioms Verif.Ieee.C99_defined
#print axioms Verif.Ieee.C99_infinite
#print axioms Verif.Ieee.C99_monotone
#print axioms Verif.Ieee.C99_false_nan
#print axioms Verif.Ieee.C99_false_one_short
#print axioms Verif.Ieee.C100_linear_partial
#print axioms Verif.Ieee.C100_add_sample_partial
#print axioms Verif.Ieee.C100_explicit
#print axioms Verif.Ieee.C100_exponential_partial
#print axioms Verif.Ieee.C100_false_overflow
#print axioms Verif.Ieee.C100_false_nan_width
#print axioms Verif.Ieee.C100_false_exponential_overflow
#print axioms Verif.Ieee.C100_false_exponential_growth
#print axioms Verif.Ieee.C101_within_one_partial
#print axioms Verif.Ieee.C101_false_adjacent
#print axioms Verif.Ieee.C101_false_far
#print axioms Verif.Ieee.C102_linear
#print axioms Verif.Ieee.C102_exponential
#print axioms Verif.Ieee.C102_explicit
#print axioms Verif.Ieee.C103_merged_error_partial
#print axioms Verif.Ieee.C103_mean_error_partial
#print axioms Verif.Ieee.C103_false_outside
#print axioms Verif.Ieee.C104_not_negative_partial
#print axioms Verif.Ieee.C104_false_overflow
#print axioms Verif.Ieee.C104_false_foreign
#print axioms Verif.Ieee.C105_report_flush
#print axioms Verif.Ieee.C105_check_flush
#print axioms Verif.Ieee.C105_timer_reports
#print axioms Verif.Threads.C106_ledger
#print axioms Verif.Threads.C106_tokens
#print axioms Verif.Threads.C106_false_destroyed
#print axioms Verif.Threads.C106_false_dropped
#print axioms Verif.Check.C107_check_same
#print axioms Verif.Check.C107_check_same_back
#print axioms Verif.Check.C107_check_no_fault
#print axioms Verif.Check.C107_check_objects
#print axioms Verif.Check.C107_check_no_leak
#print axioms Verif.Report.C107_report_same
#print axioms Verif.Report.C107_report_same_back
#print axioms Verif.Report.C107_report_no_fault
#print axioms Verif.Report.C107_report_objects
#print axioms Verif.Report.C107_report_no_leak
#print axioms Verif.Quota.C107_quota_same
#print axioms Verif.Quota.C107_quota_no_fault
#print axioms Verif.Quota.C107_quota_no_leak
#print axioms Verif.Threads.C108_expired
#print axioms Verif.Threads.C108_sent
#print axioms Verif.Threads.C108_log_entries
#print axioms Verif.Threads.C109_served
#print axioms Verif.Threads.C110_quotas_fresh
#print axioms Verif.Ieee.C111_same_layout_partial
#print axioms Verif.Ieee.C111_false_infinite
#print axioms Verif.Ieee.C111_false_direction
#print axioms Verif.Threads.C112_not_after_done_partial
#print axioms Verif.Threads.C112_not_after_return
#print axioms Verif.Threads.C112_false_report
#print axioms Verif.Threads.C113_alive_partial
#print axioms Verif.Threads.C113_false_flushed
#print axioms Verif.Threads.C113_false_report
#print axioms Verif.Threads.C114_between_partial
#print axioms Verif.Threads.C114_not_ahead_partial
#print axioms Verif.Threads.C114_exact_partial
#print axioms Verif.Threads.C114_false_snapshot
#print axioms Verif.Ieee.C115_ssd_error_partial
#print axioms Verif.Ieee.C115_false_equal
#print axioms Verif.Ieee.C115_false_zero
#print axioms Verif.Ieee.C116_double_totals
#print axioms Verif.Ieee.C116_threads
#print axioms Verif.Ieee.C116_all_sent
#print axioms Verif.Ieee.C116_false_exact
#print axioms Verif.Ieee.C116_false_overflow
#print axioms Verif.Ieee.C117_samples_kept_partial
#print axioms Verif.Ieee.C117_threads_partial
#print axioms Verif.Ieee.C117_all_sent_partial
#print axioms Verif.Ieee.C117_false_infinite
#print axioms Verif.Ieee.C118_statistics
#print axioms Verif.Ieee.C118_threads
#print axioms Verif.Ieee.C118_all_sent
#print axioms Verif.Ieee.C119_absorbed
#print axioms Verif.Ieee.C119_conserved
#print axioms Verif.Ieee.C119_all_sent_partial
#print axioms Verif.C120_report_cache
#print axioms Verif.C120_check_cache
#print axioms Verif.C120_reports
#print axioms Verif.C120_all_sent
#print axioms Verif.C120_checks
#print axioms Verif.C120_checks_all_sent_partial
#print axioms Verif.Ieee.C121_near_partial
#print axioms Verif.Ieee.C121_add_sample_partial
#print axioms Verif.Ieee.C121_within_one_partial
#print axioms Verif.Ieee.C121_false_bound
#print axioms Verif.Lru.C122_age_partial
#print axioms Verif.Lru.Ptr.C122_age_pointers_partial
#print axioms Verif.Lru.C122_iterates
#print axioms Verif.Lru.C122_false_in_use
#print axioms Verif.Lru.C122_false_overflow
#print axioms Verif.Lru.Ptr.C123_debug_output
#print axioms Verif.Threads.C124_fresh
#print axioms Verif.Threads.C125_one_in_flight
#print axioms Verif.Threads.C125_false_slow
#print axioms Verif.Threads.C126_alone
#print axioms Verif.Threads.C126_carried_partial
#print axioms Verif.Threads.C126_false_quota_general
#print axioms Verif.Threads.C126_false_quota
#print axioms Verif.Quota.C127_expires
#print axioms Verif.Quota.C127_asks_again
#print axioms Verif.Threads.C127_threads
