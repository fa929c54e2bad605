# Axioms of each property theorem

Output of `#print axioms`. P = propext, C = Classical.choice, Q = Quot.sound; no other axiom is used.

| theorem | axioms |
|---|---|
| Verif.Heap.C01_heap_refines_bag | P Q |
| Verif.Heap.C01_pop_all_sorts | C P Q |
| Verif.Heap.C02_iterators | P Q |
| Verif.Heap.C03_constructor_duplicates_violate | P Q |
| Verif.Heap.C03_filter_map_violates | P Q |
| Verif.Heap.C03_full_statement_is_false | P |
| Verif.Heap.C03_no_duplicates_partial | P Q |
| Verif.Heap.C03_pop_item_violates | P |
| Verif.Heap.C03_set_heap_refines_set_partial | P Q |
| Verif.Heap.C04_get_timestamp_broken | C P Q |
| Verif.Heap.C04_pop_less_than_exact_cut | C P Q |
| Verif.Heap.C04_time_heap_refines_bag | C P Q |
| Verif.Heap.C05_remove_violates | P Q |
| Verif.Heap.C05_time_set_heap_refines_map_partial | P Q |
| Verif.SortedL.C06_conservation | P Q |
| Verif.SortedL.C06_sorted_list_refines_sequence | P Q |
| Verif.SortedL.C07_positions_bijective | C P Q |
| Verif.SortedL.C07_ranking_refines_sequence | P Q |
| Verif.SortedL.C07_removed_element_keeps_rank_violates | P Q |
| Verif.LRU.C08_lru_evicts_least_recently_used | P Q |
| Verif.Cache.C09_discards_least_recently_used | C P Q |
| Verif.Cache.C09_lookup_is_a_use | C P Q |
| Verif.Cache.C09_lru_cache_bounded | C P Q |
| Verif.Cache.C09_use_order | C P Q |
| Verif.Cache.C10_cache_dict_refines_memory_partial | C P Q |
| Verif.Cache.C10_custom_time_getter_violates | P Q |
| Verif.Cache.C10_feed_timestamp_zero_violates | P Q |
| Verif.Cache.C10_never_returns_expired_partial | C P Q |
| Verif.Cache.C11_failure_remembered_partial | C P Q |
| Verif.Cache.C11_feed_is_masked_violates | P Q |
| Verif.Cache.C11_invalidate_keeps_failure_violates | P Q |
| Verif.Cache.C11_value_replaces_failure_partial | C P Q |
| Verif.Expiring.C12_contains_raises_after_dead_lookup_violates | P Q |
| Verif.Expiring.C12_delete_absent_violates | P Q |
| Verif.Expiring.C12_expiring_dict_any_history_partial | C P Q |
| Verif.Expiring.C12_expiring_dict_refines_partial | C P Q |
| Verif.Expiring.C12_len_raises_after_dead_lookup_violates | C P Q |
| Verif.Expiring.C13_cleanup_frees_defaults | P Q |
| Verif.Expiring.C13_default_dict_is_total_map_partial | P Q |
| Verif.Expiring.C13_in_place_update_lost_violates | P Q |
| Verif.Expiring.C13_in_place_update_never_kept_violates | P Q |
| Verif.Expiring.C13_iteration_is_empty_violates | P |
| Verif.Writeback.C14_deleted_key_returns_violates | P |
| Verif.Writeback.C14_more_workers_partial | P Q |
| Verif.Writeback.C14_plain_dictionary_partial | P Q |
| Verif.Writeback.C14_storage_stale_violates | P Q |
| Verif.Writeback.C14_workers_can_drain | C P Q |
| Verif.Syncable.C15_archive_empty_violates | P |
| Verif.Syncable.C15_confirmed_again_violates | P Q |
| Verif.Syncable.C15_key_zero_violates | P |
| Verif.Syncable.C15_maximum_ignored_violates | P Q |
| Verif.Syncable.C15_memory_bounded | C P Q |
| Verif.Syncable.C15_nothing_in_memory_violates | P |
| Verif.Syncable.C15_returns_none_violates | P Q |
| Verif.Syncable.C15_series_partial | C P Q |
| Verif.Matrix.C16_bool_inverted_violates | C P Q |
| Verif.Matrix.C16_box_unique | P Q |
| Verif.Matrix.C16_delete_last_violates | P Q |
| Verif.Matrix.C16_delete_missing_row_violates | P Q |
| Verif.Matrix.C16_matrix_partial | C P Q |
| Verif.Matrix.C16_max_partial | C P Q |
| Verif.Matrix.C16_max_violates | P Q |
| Verif.Matrix.C16_negative_read_violates | P Q |
| Verif.Matrix.C16_negative_write_violates | P Q |
| Verif.Ids.Alloc.C17_threads_distinct_partial | C P Q |
| Verif.Ids.Alloc.C17_threads_partial | C P Q |
| Verif.Ids.C17_allocator_partial | C P Q |
| Verif.Ids.C17_any_limit_partial | C P Q |
| Verif.Ids.C17_beyond_limit_violates | P Q |
| Verif.Ids.C17_negative_start_violates | P Q |
| Verif.Ids.C17_zero_limit_violates | P Q |
| Verif.Ids.C18_consecutive | P |
| Verif.Ids.C18_no_less_than | C P Q |
| Verif.Ids.C18_strictly_increasing | C P Q |
| Verif.Ids.C18_threads | C P Q |
| Verif.Group.C19_added_twice_violates | P Q |
| Verif.Group.C19_all_cancelled_violates | P Q |
| Verif.Group.C19_failure_forgets_violates | P Q |
| Verif.Group.C19_group_partial | C P Q |
| Verif.Group.C19_has_cancelled_violates | P Q |
| Verif.Group.C19_reentrant | P Q |
| Verif.Conc.C20_atomic_number | P Q |
| Verif.Conc.C20_linearizable | P Q |
| Verif.Conc.C20_linearizable_always | P Q |
| Verif.Conc.C20_mutual_exclusion | P Q |
| Verif.Conc.C20_no_deadlock | P Q |
| Verif.Conc.C20_no_lost_update | P Q |
| Verif.Conc.C20_serializable | P Q |
| Verif.PQueue.C21_delivered_to_caller | P |
| Verif.PQueue.C21_empty | C P Q |
| Verif.PQueue.C21_fifo_once | P Q |
| Verif.PQueue.C21_lost_wakeup_violates | P |
| Verif.PQueue.C21_peek_takes_wakeup_violates | P |
| Verif.PQueue.C21_woken_partial | P |
| Verif.Futures.C22_callback | P Q |
| Verif.Futures.C22_callback_done | P |
| Verif.Futures.C22_callback_only_one | P Q |
| Verif.Futures.C22_cancel_partial | P Q |
| Verif.Futures.C22_cancel_reports | P Q |
| Verif.Futures.C22_cancel_violates | P Q |
| Verif.Futures.C22_exception | P Q |
| Verif.Futures.C22_exception_raises | P Q |
| Verif.Futures.C22_result | P Q |
| Verif.Futures.C22_result_no_limit | P Q |
| Verif.Futures.C22_result_raises_partial | P Q |
| Verif.Futures.C22_result_returns | P |
| Verif.Futures.C22_result_violates | P Q |
| Verif.Futures.C22_set_result_partial | P Q |
| Verif.Futures.C22_set_result_raises | P |
| Verif.Futures.C22_set_result_violates | P Q |
| Verif.Futures.C22_start_partial | P Q |
| Verif.Futures.C22_start_reports | P Q |
| Verif.Futures.C22_start_violates | P Q |
| Verif.Pool.C23_close_race_violates | P Q |
| Verif.Pool.C23_close_tears_down | C P Q |
| Verif.Pool.C23_closed_partial | P Q |
| Verif.Pool.C23_idle_partial | P Q |
| Verif.Pool.C23_life_cycle | C P Q |
| Verif.Pool.C23_max_cycle | C P Q |
| Verif.Pool.C23_max_number_violates | P Q |
| Verif.Pool.C23_release_after_close_violates | P Q |
| Verif.Deleter.C24_backward_loop_partial | P Q |
| Verif.Deleter.C24_backward_violates | C P Q |
| Verif.Deleter.C24_dict | P Q |
| Verif.Deleter.C24_dict_loop | C P Q |
| Verif.Deleter.C24_for_loop | P Q |
| Verif.Deleter.C24_list_partial | C P Q |
| Verif.Deleter.C24_prev_violates | P Q |
| Verif.Deleter.C24_second_round_violates | P Q |
| Verif.Merge.C25_associative_partial | P Q |
| Verif.Merge.C25_associative_violates | P |
| Verif.Merge.C25_entry | P |
| Verif.Merge.C25_keys | P Q |
| Verif.Merge.C25_merge | P Q |
| Verif.Merge.C25_neutral | P Q |
| Verif.Merge.C25_other | P |
| Verif.Merge.C25_second_argument_violates | P |
| Verif.Config.C26_alternative | P Q |
| Verif.Config.C26_code | C P Q |
| Verif.Config.C26_last_atom | P Q |
| Verif.Config.C26_merging | P Q |
| Verif.Config.C26_merging_fails | P Q |
| Verif.Config.C26_object | P |
| Verif.Config.C26_optional_partial | P Q |
| Verif.Config.C26_optional_violates | P |
| Verif.Config.C26_overriding | P |
| Verif.Config.C26_provide_again_violates | P |
| Verif.MergeList.C27_commutative_partial | C P Q |
| Verif.MergeList.C27_merge_partial | C P Q |
| Verif.MergeList.C27_recursion_violates | P Q |
| Verif.MergeSeries.C28_empty | P Q |
| Verif.MergeSeries.C28_equal_violates | C P Q |
| Verif.MergeSeries.C28_merge_partial | C P Q |
| Verif.MergeSeries.C28_none | P Q |
| Verif.MergeSeries.C28_raises_violates | C P Q |
| Verif.MergeSeries.C28_twice_violates | C P Q |
| Verif.MergeSeries.C28_values | C P Q |
| Verif.Parser.C29_consecutive | C P Q |
| Verif.Parser.C29_length_violates | P |
| Verif.Parser.C29_new_partial | P Q |
| Verif.Parser.C29_offset_violates | P |
| Verif.Parser.C29_reads_partial | C P Q |
| Verif.Parser.C29_zero_violates | P |
| Verif.Time.C30_garbage_violates | C P Q |
| Verif.Time.C30_number | P |
| Verif.Time.C30_plain | P |
| Verif.Time.C30_unit | P Q |
| Verif.Time.C30_unparseable | P Q |
| Verif.Time.C30_word_partial | P Q |
| Verif.Time.C30_words_violates | C P Q |
| Verif.Time.C31_available_violates | - |
| Verif.Time.C31_bounds | C P Q |
| Verif.Time.C31_history_partial | C P Q |
| Verif.Time.C31_launch | C P Q |
| Verif.Time.C31_limit_violates | P |
| Verif.Seq.C32_add_next | P Q |
| Verif.Seq.C32_add_next_skip | P |
| Verif.Seq.C32_add_next_wrap | P Q |
| Verif.Seq.C32_group_quantity | C P Q |
| Verif.Seq.C32_group_zero | P |
| Verif.Seq.C32_half_cartesian | C P Q |
| Verif.Seq.C32_half_cartesian_violates | - |
| Verif.Seq.C32_is_last_partial | P Q |
| Verif.Seq.C32_is_last_violates | - |
| Verif.Seq.C33_even_odd | P Q |
| Verif.Seq.C33_n_th | P Q |
| Verif.Seq.C33_shift_partial | P Q |
| Verif.Seq.C33_shift_violates | P Q |
| Verif.Seq.C33_skip_first_partial | P |
| Verif.Seq.C33_skip_first_violates | P Q |
| Verif.Seq.C33_stop_after_partial | P |
| Verif.Seq.C33_stop_after_violates | P Q |
| Verif.Seq.C33_take_n_partial | P |
| Verif.Seq.C33_take_n_violates | P Q |
| Verif.Seq.C34_distinct | P Q |
| Verif.Seq.C34_unhashable | P Q |
| Verif.Seq.C34_unique | P Q |
| Verif.Seq.C35_broad_partial | C P Q |
| Verif.Seq.C35_deep_partial | C P Q |
| Verif.Seq.C35_leaves | P Q |
| Verif.Seq.C35_root_violates | P |
| Verif.Seq.C35_same | C P Q |
| Verif.Seq.C36_adapter_partial | P Q |
| Verif.Seq.C36_consumed_violates | P |
| Verif.Seq.C36_index | P Q |
| Verif.Seq.C36_iterate_violates | P |
| Verif.Seq.C36_negative_violates | P |
| Verif.Seq.C36_slice | P Q |
| Verif.Seq.C36_slice_violates | P |
| Verif.Seq.C36_wrapper_partial | P Q |
| Verif.Deco.C37_at_most | P Q |
| Verif.Deco.C37_between_raises | P Q |
| Verif.Deco.C37_callback_raises | P Q |
| Verif.Deco.C37_failure_partial | P Q |
| Verif.Deco.C37_forever | P Q |
| Verif.Deco.C37_on_success_violates | - |
| Verif.Deco.C37_success_partial | P Q |
| Verif.Deco.C37_unlisted | P Q |
| Verif.Deco.C37_zero_violates | P |
| Verif.Deco.C38_concurrent_violates | P |
| Verif.Deco.C38_fresh | P Q |
| Verif.Deco.C38_kwargs_violates | P |
| Verif.Deco.C38_overwritten_violates | P Q |
| Verif.Deco.C38_sequential | P Q |
| Verif.Metrics.C39_buckets_sum | P Q |
| Verif.Metrics.C39_counter | C P Q |
| Verif.Metrics.C39_counter_labels | C P Q |
| Verif.Metrics.C39_histogram | C P Q |
| Verif.Metrics.C39_histogram_labels | C P Q |
| Verif.Metrics.C39_one_bucket | P Q |
| Verif.Metrics.C39_partition | P Q |
| Verif.Metrics.C39_simple | C P Q |
| Verif.Metrics.C39_submetrics | C P Q |
| Verif.Metrics.C39_summary_accepts | P Q |
| Verif.Metrics.C39_summary_labels_partial | C P Q |
| Verif.Metrics.C39_summary_partial | C P Q |
| Verif.Metrics.C39_summary_unlabelled_violates | C P Q |
| Verif.Metrics.C39_summary_zero_violates | - |
| Verif.Metrics.C40_boundary_violates | C P Q |
| Verif.Metrics.C40_cps_labels_partial | C P Q |
| Verif.Metrics.C40_cps_partial | C P Q |
| Verif.Metrics.C40_exact | C P Q |
| Verif.Metrics.C40_periods | P |
| Verif.Metrics.C40_unlabelled_violates | C P Q |
| Verif.Metrics.C41_alternate | P Q |
| Verif.Metrics.C41_linkfail | P Q |
| Verif.Metrics.C41_report_links_partial | C P Q |
| Verif.Metrics.C41_report_partial | C P Q |
| Verif.Metrics.C41_status | P Q |
| Verif.Metrics.C41_status_violates | C P Q |
| Verif.Metrics.C41_zero_violates | P Q |
| Verif.Metrics.C42_add_entry_partial | P Q |
| Verif.Metrics.C42_add_partial | P Q |
| Verif.Metrics.C42_internals | P Q |
| Verif.Metrics.C42_labels | P Q |
| Verif.Metrics.C42_one_per_key_partial | P Q |
| Verif.Metrics.C42_prefix | P Q |
| Verif.Metrics.C42_prefix_violates | C P Q |
| Verif.Metrics.C42_set | P Q |
| Verif.Metrics.C42_strict_eq | C P Q |
| Verif.Queue.C43_empty | C P Q |
| Verif.Queue.C43_fifo | P Q |
| Verif.Queue.C43_get_any_concurrent_partial | P Q |
| Verif.Queue.C43_get_any_partial | P Q |
| Verif.Queue.C43_get_any_violates | P Q |
| Verif.Queue.C43_get_solo | P Q |
| Verif.Queue.C43_given | P Q |
| Verif.Queue.C43_no_key_error | P Q |
| Verif.Queue.PushIter.C43_none_lost | P Q |
| Verif.Queue.PushIter.C43_push_iterable | P |
| Verif.Memory.C44_pressure | C P Q |
| Verif.Memory.C44_raised_is_final | P Q |
| Verif.Os.C45_exclusive_partial | P Q |
| Verif.Os.C45_locked | P |
| Verif.Os.C45_not_found_violates | P Q |
| Verif.Os.C45_own_pid_violates | P Q |
| Verif.Os.C45_release_partial | P Q |
| Verif.Os.C45_takeover | P Q |
| Verif.Os.C45_two_holders_violates | P |
| Verif.Db.C46_callable_violates | P |
| Verif.Db.C46_cursor_partial | P Q |
| Verif.Db.C46_cursor_violates | P Q |
| Verif.Db.C46_exact | P Q |
| Verif.Db.C46_never_both | P Q |
| Verif.Db.C46_transaction | P Q |
| Verif.Heap.C47_heap_copy | P Q |
| Verif.Heap.C47_time_heap_copy_violates | P Q |
| Verif.Group.C48_first_call_violates | P Q |
| Verif.Group.C48_no_oftener_partial | P Q |
| Verif.Group.C48_not_suppressed_partial | P Q |
| Verif.Group.C48_raised_violates | P Q |
| Verif.Conc.C49_crossed_comparison_violates | P |
| Verif.Conc.C49_ordered_partial | C P Q |
| Verif.Conc.C49_self_comparison_violates | P Q |
| Verif.Conc.C50_lost_wakeup_violates | P Q |
| Verif.Conc.C50_quiet_update_violates | - |
| Verif.Conc.C50_returns_only_when_equal | P |
| Verif.Conc.C50_timeout_outcome | C P Q |
| Verif.Conc.C50_timeout_returns | P |
| Verif.Conc.C50_timeout_violates | P |
| Verif.Conc.C50_woken_partial | P Q |
| Verif.Futures.C51_cancel | P |
| Verif.Futures.C51_cancel_violates | P |
| Verif.Futures.C51_exception_partial | P Q |
| Verif.Futures.C51_exception_violates | P |
| Verif.Futures.C51_final | P |
| Verif.Futures.C51_pre_done_partial | P Q |
| Verif.Futures.C51_recover_violates | P |
| Verif.Futures.C52_cancelled_violates | P |
| Verif.Futures.C52_hooks_partial | P Q |
| Verif.Futures.C53_cancel_violates | P |
| Verif.Futures.C53_cancelled_partial | P |
| Verif.Futures.C53_constructor_violates | P |
| Verif.Futures.C53_source_cancelled_violates | P |
| Verif.Futures.C53_wrapping_partial | C P Q |
| Verif.Pool.C54_context_manager_violates | P Q |
| Verif.Pool.C54_invalidate_violates | P Q |
| Verif.Pool.C54_returns_partial | P Q |
| Verif.Pool.C54_zero_violates | P Q |
| Verif.Config.C55_directory | C P Q |
| Verif.Config.C55_directory_silent | C P Q |
| Verif.Config.C55_file | P |
| Verif.Config.C55_format | P |
| Verif.Time.C56_never_stops | P Q |
| Verif.Time.C56_resume_violates | P |
| Verif.Time.C56_stopwatch_partial | P Q |
| Verif.Time.C57_available_partial | P Q |
| Verif.Time.C57_missed_violates | P Q |
| Verif.Time.C57_returns | P |
| Verif.Time.C57_safe_partial | P Q |
| Verif.Time.C57_timeout_violates | P Q |
| Verif.Time.C57_wakes | P |
| Verif.Seq.C58_already_seen_partial | P Q |
| Verif.Seq.C58_mixed_violates | P |
| Verif.Metrics.C59_collection_partial | C P Q |
| Verif.Metrics.C59_json_partial | C P Q |
| Verif.Metrics.C59_reserved_violates | C P Q |
| Verif.Metrics.C60_clone_violates | C P Q |
| Verif.Metrics.C60_cps_partial | C P Q |
| Verif.Metrics.C60_histogram_violates | C P Q |
| Verif.Metrics.C60_internal_partial | C P Q |
| Verif.Metrics.C60_linkfail | C P Q |
| Verif.Metrics.C60_simple_partial | P Q |
| Verif.Metrics.C60_summary_partial | C P Q |
| Verif.Prometheus.C60_prometheus | C P Q |
| Verif.Memory.C61_conditions_partial | P |
| Verif.Memory.C61_local_relative_violates | C P Q |
| Verif.Memory.C61_no_maximum_violates | P |
| Verif.Memory.C61_zero_maximum_violates | P |
| Verif.Deco.Rethrow.C62_recursion_translated_violates | P |
| Verif.Deco.Rethrow.C62_recursion_violates | P |
| Verif.Deco.Rethrow.C62_reraise | P |
| Verif.Deco.Rethrow.C62_rethrow_partial | P |
| Verif.Exn.C63_hooks | P Q |
| Verif.Exn.C63_threads | P |
| Verif.Deferred.C64_given | P Q |
| Verif.Deferred.C64_single_partial | C P Q |
| Verif.Deferred.C64_two_setters_violates | P |
| Verif.Deferred.C64_wakes | P Q |
| Verif.LockedDataset.C65_access_partial | P Q |
| Verif.LockedDataset.C65_access_violates | P |
| Verif.LockedDataset.C65_asked_partial | P |
| Verif.LockedDataset.C65_exclusive | P Q |
| Verif.LockedDataset.C65_plain_partial | P Q |
| Verif.LockedDataset.C65_refused_partial | P Q |
| Verif.LockedDataset.C65_stale_arguments_violates | P |
| Verif.SyncPool.C66_hangs_violates | P |
| Verif.SyncPool.C66_progress | C P Q |
| Verif.SyncPool.C66_returns_partial | C P Q |
| Verif.SyncPool.C66_synced | C P Q |
| Verif.SyncPool.C66_timeout_violates | P |
| Verif.Terminable.C67_base_violates | P |
| Verif.Terminable.C67_flagged | P Q |
| Verif.Terminable.C67_interval | P Q |
| Verif.Terminable.C67_interval_flagged | P |
| Verif.Terminable.C67_lifecycle_partial | P Q |
| Verif.Terminable.C67_terminates | P Q |
| Verif.SafeSleep.C68_locked_violates | P Q |
| Verif.SafeSleep.C68_safe_sleep | C P Q |
| Verif.SafeSleep.C68_safe_wait_partial | C P Q |
| Verif.SafeSleep.C68_zero_violates | P Q |
| Verif.Timer.C69_executed_partial | P Q |
| Verif.Timer.C69_pass_partial | P Q |
| Verif.Timer.C69_same_deadline_violates | P |
| Verif.Timer.C69_timers_partial | P Q |
| Verif.Closeable.C70_closeable_partial | P Q |
| Verif.Closeable.C70_once_partial | C P Q |
| Verif.Closeable.C70_two_threads_violates | - |
| Verif.Context.C71_context_partial | C P Q |
| Verif.Context.C71_push_violates | P |
| Verif.Context.C71_sees_unique | - |
| Verif.Context.C71_with_violates | P |
| Verif.Files.C72_absolute_violates | P Q |
| Verif.Files.C72_double_violates | P |
| Verif.Files.C72_split_partial | C P Q |
| Verif.Files.C73_ends | C P Q |
| Verif.Files.C73_name | P Q |
| Verif.Files.C73_same | C P Q |
| Verif.Files.Whole.C74_files_partial | P Q |
| Verif.Files.Whole.C74_last_written_partial | P Q |
| Verif.Files.Whole.C74_truncated_violates | P Q |
| Verif.Files.Whole.C74_undecodable_violates | P Q |
| Verif.Files.Find.C75_directory_violates | C P Q |
| Verif.Files.Find.C75_entire_violates | P |
| Verif.Files.Find.C75_find_partial | P Q |
| Verif.Files.Find.C75_member_partial | P Q |
| Verif.Files.Jump.C76_nested_violates | P |
| Verif.Files.Jump.C76_no_exceptions_partial | P Q |
| Verif.Files.Jump.C76_program_partial | P Q |
| Verif.Files.Jump.C76_restored_partial | P Q |
| Verif.Files.Jump.C76_runs_partial | P Q |
| Verif.Files.Autoflush.C77_autoflush_partial | P Q |
| Verif.Files.Autoflush.C77_construct_partial | P |
| Verif.Files.Autoflush.C77_modes_violates | P |
| Verif.Files.Autoflush.C77_not_held | P |
| Verif.Files.Autoflush.C77_read_violates | P Q |
| Verif.Files.Autoflush.C77_truncate_violates | P |
| Verif.Files.Autoflush.C77_which_read_partial | P Q |
| Verif.Conc.ThreadFuture.C78_answers | P Q |
| Verif.Conc.ThreadFuture.C78_base_violates | P Q |
| Verif.Conc.ThreadFuture.C78_delay | P Q |
| Verif.Conc.ThreadFuture.C78_future | P Q |
| Verif.Conc.ThreadFuture.C78_resolved_partial | P Q |
| Verif.Conc.Parallel.C79_all_partial | P Q |
| Verif.Conc.Parallel.C79_base_violates | P Q |
| Verif.Conc.Parallel.C79_construct | P Q |
| Verif.Conc.Parallel.C79_execute | P Q |
| Verif.Conc.ThreadCollection.C80_join | P Q |
| Verif.Conc.ThreadCollection.C80_join_returns | P |
| Verif.Conc.ThreadCollection.C80_start | P Q |
| Verif.Conc.ThreadCollection.C80_start_stops | P |
| Verif.Conc.ThreadCollection.C80_terminate | P |
| Verif.Conc.ThreadCollection.C80_would_wait | P |
| Verif.Args.C81_get_arguments_partial | C P Q |
| Verif.Args.C81_missing | C P Q |
| Verif.Args.C81_too_many_violates | P Q |
| Verif.Args.C81_twice_violates | P Q |
| Verif.Args.C81_unknown_violates | P Q |
| Verif.Args.C81_varargs_violates | C P Q |
| Verif.Args.C82_call_with_arguments_partial | C P Q |
| Verif.Args.C82_errors | P Q |
| Verif.Args.C82_gap_violates | P Q |
| Verif.Args.C82_round_trip | C P Q |
| Verif.Args.C83_attach | P Q |
| Verif.Args.C83_by_name_violates | P Q |
| Verif.Args.C83_callable_default_violates | P Q |
| Verif.Args.C83_for_argument_partial | C P Q |
| Verif.Args.C83_keyword_violates | P Q |
| Verif.Args.C83_kwonly_violates | P Q |
| Verif.Args.C83_positional_violates | P Q |
| Verif.Args.C83_predicate_violates | C P Q |
| Verif.Args.C83_replace_partial | C P Q |
| Verif.Args.C83_transform_arguments_partial | C P Q |
| Verif.Args.C83_transform_result_partial | C P Q |
| Verif.Precondition.C84_by_name_violates | - |
| Verif.Precondition.C84_by_place_violates | - |
| Verif.Precondition.C84_falsy_violates | P |
| Verif.Precondition.C84_names | P |
| Verif.Precondition.C84_outcomes_partial | P Q |
| Verif.Precondition.C84_postcondition_partial | P |
| Verif.Precondition.C84_postcondition_raises | - |
| Verif.Precondition.C84_postcondition_violates | P |
| Verif.Precondition.C84_precondition_partial | P Q |
| Verif.Flow.C85_empty_partial | P |
| Verif.Flow.C85_empty_violates | C P Q |
| Verif.Flow.C85_items | C P Q |
| Verif.Flow.C85_loop_raises | P Q |
| Verif.Flow.C85_loop_while | P Q |
| Verif.Flow.C85_results | P Q |
| Verif.CachedProperty.C86_cached_property_partial | P Q |
| Verif.CachedProperty.C86_not_loaded_violates | P |
| Verif.CachedProperty.C86_once_partial | C P Q |
| Verif.CachedProperty.C86_two_threads_violates | P |
| Verif.CachedProperty.C87_chain_partial | P |
| Verif.CachedProperty.C87_documented | C P Q |
| Verif.CachedProperty.C87_pair_violates | P |
| Verif.Schema.C88_caster_violates | P |
| Verif.Schema.C88_deterministic | P Q |
| Verif.Schema.C88_exceptions_partial | P |
| Verif.Schema.C88_many_partial | P Q |
| Verif.Schema.C88_no_list_partial | P Q |
| Verif.Schema.C88_schema_partial | P Q |
| Verif.Schema.C88_second_time_violates | P Q |
| Verif.Schema.C88_single_call_violates | P Q |
| Verif.Schema.C88_union_violates | P Q |
| Verif.SchemaRegexp.C89_accepts_iff_beginning | P Q |
| Verif.SchemaRegexp.C89_attribute_error_violates | P Q |
| Verif.SchemaRegexp.C89_ipv4_form | P Q |
| Verif.SchemaRegexp.C89_ipv4_garbage_violates | C P Q |
| Verif.SchemaRegexp.C89_ipv4_numbers_violates | C P Q |
| Verif.SchemaRegexp.C89_ipv4_unchanged | C P Q |
| Verif.SchemaRegexp.C89_regexp_partial | P Q |
| Verif.SchemaRegexp.C89_returns_a_match | P Q |
| Verif.Schema.C90_call_partial | C P Q |
| Verif.Schema.C90_default_partial | P |
| Verif.Schema.C90_empty_violates | P |
| Verif.Schema.C90_from_dict_partial | C P Q |
| Verif.Schema.C90_list_of_unknown_violates | C P Q |
| Verif.Schema.C90_nested_type_violates | P |
| Verif.Schema.C90_optional_partial | P Q |
| Verif.Schema.C90_type_violates | C P Q |
| Verif.Schema.C90_unknown_violates | P |
| Verif.Pred.C91_has | P Q |
| Verif.Pred.C91_has_keys | P Q |
| Verif.Pred.C91_is_predicate | C P Q |
| Verif.Pred.C91_predicate_value | P Q |
| Verif.Pred.C92_inside_partial | C P Q |
| Verif.Pred.C92_inside_violates | P Q |
| Verif.PredBuild.C93_build_partial | P Q |
| Verif.PredBuild.C93_dict_violates | P |
| Verif.PredBuild.C93_other_violates | P |
| Verif.Overload.C94_arity_violates | P Q |
| Verif.Overload.C94_executes_matching | P Q |
| Verif.Overload.C94_first_registered_violates | P Q |
| Verif.Overload.C94_most_specific_violates | P Q |
| Verif.Overload.C94_no_annotation_violates | P Q |
| Verif.Overload.C94_overload_partial | C P Q |
| Verif.Overload.C94_register | P Q |
| Verif.Transforms.C95_clip | C P Q |
| Verif.Transforms.C95_hashables | P Q |
| Verif.Transforms.C95_indices | P Q |
| Verif.Transforms.C95_is_subset | P Q |
| Verif.Transforms.C95_pad | C P Q |
| Verif.Transforms.C95_split_shuffle | P |
| Verif.Transforms.C95_unpack | P |
| Verif.Interpolate.C96_at_entries | C P Q |
| Verif.Interpolate.C96_between | C P Q |
| Verif.Interpolate.C96_outside | C P Q |
| Verif.Interpolate.C96_percentile | C P Q |
| Verif.Interpolate.C96_percentile_sorted | C P Q |
| Verif.DirtyDict.C97_dirty_dict | C P Q |
| Verif.TwoWay.C98_init | C P Q |
| Verif.TwoWay.C98_two_way | C P Q |
| Verif.TwoWay.C99_done_violates | - |
| Verif.DictView.C100_read_after_write | C P Q |
| Verif.DictView.C100_view | C P Q |
| Verif.DictView.C101_copy_partial | P |
| Verif.DictView.C101_copy_violates | P |
| Verif.KeyAware.C102_default_dict_partial | P Q |
| Verif.KeyAware.C102_lookups_violates | P Q |
| Verif.KeyAware.C102_refused_partial | P Q |
| Verif.ThreadPool.C103_broken | C P Q |
| Verif.ThreadPool.C103_completes | C P Q |
| Verif.ThreadPool.C103_metrics | C P Q |
| Verif.ThreadPool.C103_once | C P Q |
| Verif.ThreadPool.C103_order | C P Q |
| Verif.ThreadPool.C103_threads | C P Q |
| Verif.ThreadPool.C104_begun_partial | P Q |
| Verif.ThreadPool.C104_dropped_violates | P |
| Verif.ThreadPool.C104_lost_violates | P Q |
| Verif.ThreadPool.C105_shutdown_partial | C P Q |
| Verif.ThreadPool.C105_shutdown_violates | P |
| Verif.MetricTree.C106_get_metric | C P Q |
| Verif.MetricTree.C106_name | C P Q |
| Verif.MetricTree.C107_leaf_violates | P Q |
| Verif.MetricTree.C107_reset_root_partial | P Q |
| Verif.MetricTree.C107_reset_violates | P |
| Verif.MetricTree.C107_root_violates | P |
| Verif.MetricTree.C107_unknown_type_partial | C P Q |
| Verif.Mixins.C108_by | P Q |
| Verif.Mixins.C108_by_int | P Q |
| Verif.Mixins.C108_by_str | P Q |
| Verif.Mixins.C108_frozendict | C P Q |
| Verif.Mixins.C108_frozendict_equal | C P Q |
| Verif.Mixins.C108_omni_equal | P Q |
| Verif.Mixins.C108_omni_equivalence | P Q |
| Verif.Mixins.C108_omni_hash | P Q |
| Verif.Mixins.C108_wrapper | P Q |
| Verif.Mixins.C109_int_partial | C P Q |
| Verif.Mixins.C109_mixed_violates | C P Q |
| Verif.Mixins.C109_str_partial | C P Q |
| Verif.Immutable.C110_constructor | P Q |
| Verif.Immutable.C110_immutable | P Q |
| Verif.Immutable.C111_frozendict_partial | P Q |
| Verif.Immutable.C111_frozendict_violates | - |
| Verif.Enums.C112_equal | C P Q |
| Verif.Enums.C112_equivalence | C P Q |
| Verif.Enums.C113_equal_raises_violates | P Q |
| Verif.Enums.C113_int_enum_partial | C P Q |
| Verif.Enums.C113_unhashable_violates | - |
| Verif.Enums.C114_eqable_partial | C P Q |
| Verif.Enums.C114_more_attributes_violates | - |
| Verif.Proxy.C115_comparisons | P |
| Verif.Proxy.C115_in_place | P Q |
| Verif.Proxy.C115_in_place_nested | P |
| Verif.Proxy.C115_operators | P |
| Verif.Proxy.C115_shed | P |
| Verif.Proxy.C115_unary | P |
| Verif.Proxy.C116_and_or_violates | P |
| Verif.Proxy.C116_divmod_partial | P |
| Verif.Proxy.C116_mod_violates | P |
| Verif.Proxy.C116_reflected_partial | P |
| Verif.Proxy.C116_second_violates | P |
| Verif.Proxy.C116_wraps_partial | P |
| Verif.Singleton.C117_single | P Q |
| Verif.Singleton.C117_singleton | P Q |
| Verif.Singleton.C118_at_most_once_partial | P Q |
| Verif.Singleton.C118_keywords_violates | P Q |
| Verif.Singleton.C118_raises_violates | - |
| Verif.Singleton.C118_single_raises_violates | - |
| Verif.MetricTree.C119_handle | C P Q |
| Verif.MetricTree.C119_level | C P Q |
| Verif.MetricTree.C120_levels | C P Q |
| Verif.MetricTree.C120_reported | C P Q |
| Verif.Cache.C121_counts | P Q |
| Verif.Cache.C121_hits | P Q |
| Verif.Cache.C121_miss_asks | C P Q |
| Verif.Cache.C121_same_cache | P |
| Verif.Cache.C122_evictions_partial | C P Q |
| Verif.Cache.C122_evictions_violates | P Q |
| Verif.Cache.C122_failures_miss_violates | P |
| Verif.Cache.C122_failures_violates | P |
| Verif.Writeback.C122_entries_waiting_violates | P |
| Verif.Writeback.C122_writeback_partial | P Q |
| Verif.Writeback.C122_writeback_violates | P |
| Verif.Measure.C123_context | P Q |
| Verif.Measure.C123_decorator | P Q |
| Verif.Measure.C123_future | P Q |
| Verif.Measure.C123_generator_never | P |
| Verif.Measure.C123_generator_once | P |
| Verif.Measure.C123_generator_same | P Q |
| Verif.Measure.C124_base_exception_violates | P |
| Verif.Measure.C124_context_overlap_violates | P Q |
| Verif.Measure.C124_future_twice_violates | P Q |
| Verif.Measure.C124_generator_value_violates | P |
| Verif.Measure.C124_measure_partial | P Q |
| Verif.Prometheus.C125_export_read_back | P Q |
| Verif.Prometheus.C126_injective_partial | P Q |
| Verif.Prometheus.C126_names_violates | P |
| Verif.Prometheus.C126_newline_violates | P |
| Verif.DeepCompare.C127_assert_equal | C P Q |
| Verif.DeepCompare.C127_equal_passes | C P Q |
| Verif.DeepCompare.C127_set_of_other_kind | P |
| Verif.DeepCompare.C128_dict_list_violates | P |
| Verif.DeepCompare.C128_dict_set_violates | P Q |
| Verif.DeepCompare.C128_dictionary_partial | P Q |
| Verif.DeepCompare.C128_kinds_violates | P |
| Verif.DeepCompare.C128_list_set_violates | P |
| Verif.DeepCompare.C128_raising_equality_violates | P |
| Verif.DeepCompare.C128_symmetry_partial | C P Q |
| Verif.DeepCompare.C128_symmetry_violates | P |
| Verif.DeepCompare.C128_type_error_violates | P |
| Verif.Jsonify.C129_json_unchanged | C P Q |
| Verif.Jsonify.C129_jsonify | C P Q |
| Verif.Jsonify.C130_entries_violates | P |
| Verif.Jsonify.C130_enum_violates | P |
| Verif.Jsonify.C130_result_is_json_partial | P Q |
| Verif.Jsonify.C130_tuple_key_violates | P |
| Verif.Jsonify.C131_idempotent | C P Q |
| Verif.Jsonify.C131_stringify | C P Q |
| Verif.Jsonify.C131_strings | P Q |
| Verif.Jsonify.C132_atom_partial | P |
| Verif.Jsonify.C132_entries_violates | P |
| Verif.Jsonify.C132_enum_violates | P |
| Verif.Jsonify.C132_flat_partial | P |
| Verif.Jsonify.C132_none_violates | P |
| Verif.Jsonify.C132_tuple_key_violates | P |
| Verif.Tuples.C133_raises | C P Q |
| Verif.Tuples.C133_setzip | P Q |
| Verif.Tuples.C133_typednamedtuple | C P Q |
| Verif.Tuples.C133_vector_inverse | C P Q |
| Verif.Tuples.C133_vector_scalar | C P Q |
| Verif.Tuples.C133_vector_sum | C P Q |
| Verif.Tuples.C134_excess_violates | C P Q |
| Verif.Tuples.C134_setzip_partial | P Q |
| Verif.Tuples.C134_setzip_violates | P Q |
| Verif.Tuples.C134_vector_length_violates | C P Q |
| Verif.Tainting.C135_equality | P Q |
| Verif.Tainting.C135_iteration | P Q |
| Verif.Tainting.C135_no_spurious_taint | P Q |
| Verif.Tainting.C135_order | P Q |
| Verif.Tainting.C135_propagates | P Q |
| Verif.Tainting.C135_repeats | C P Q |
| Verif.Tainting.C135_same_values | P Q |
| Verif.Tainting.C136_index_violates | P Q |
| Verif.Tainting.C136_ne_violates | P Q |
| Verif.Tainting.C136_reflected_violates | P |
| Verif.Tainting.C136_sums_partial | P Q |
| Verif.Traceback.C137_bottom | P |
| Verif.Traceback.C137_equal | P |
| Verif.Traceback.C137_frames | P Q |
| Verif.Traceback.C137_json | P |
| Verif.Traceback.C137_load | P |
| Verif.Traceback.C137_load_fails | P |
| Verif.Traceback.C137_repr | P Q |
| Verif.Traceback.C137_unpickling | P |
| Verif.Traceback.C138_environment_violates | P Q |
| Verif.Traceback.C138_json_partial | P |
| Verif.Traceback.C138_json_violates | P |
| Verif.Traceback.C138_repr_violates | P Q |
| Verif.CpuSleep.C139_after | C P Q |
| Verif.CpuSleep.C139_negative | C P Q |
| Verif.CpuSleep.C139_plain | C P Q |
| Verif.CpuSleep.C139_sleep | C P Q |
| Verif.CpuSleep.C139_thread | C P Q |
| Verif.CpuSleep.C140_check_each_violates | C P Q |
| Verif.CpuSleep.C140_sooner_partial | C P Q |
| Verif.CpuSleep.C140_time_string_violates | C P Q |
| Verif.CpuSleep.C140_zero_sooner_violates | C P Q |
| Verif.CpuStats.C141_occupancy | C P Q |
| Verif.CpuStats.C141_own_usage | C P Q |
| Verif.CpuStats.C141_own_usage_again | C P Q |
| Verif.CpuStats.C141_percentile | C P Q |
| Verif.CpuStats.C141_range | C P Q |
| Verif.CpuStats.C141_returns | C P Q |
| Verif.CpuStats.C141_window | C P Q |
| Verif.CpuStats.C142_guest_violates | C P Q |
| Verif.CpuStats.C142_kinds_partial | C P Q |
| Verif.CpuStats.C142_percentile_partial | C P Q |
| Verif.CpuStats.C142_request_violates | P |
| Verif.CpuStats.C142_schedule_partial | C P Q |
| Verif.CpuStats.C142_threads_violates | C P Q |
| Verif.Helpers.C143_count | C P Q |
| Verif.Helpers.C143_count_start_at | C P Q |
| Verif.Helpers.C143_enumerate2 | C P Q |
| Verif.Helpers.C143_f_range | C P Q |
| Verif.Helpers.C143_f_range_defaults | C P Q |
| Verif.Helpers.C143_filter | P Q |
| Verif.Helpers.C143_index_of | P Q |
| Verif.Helpers.C143_index_of_max | P Q |
| Verif.Helpers.C143_is_empty | P Q |
| Verif.Helpers.C143_iter_dict_of_list | P |
| Verif.Helpers.C143_iterate_callable | C P Q |
| Verif.Helpers.C143_multirun | C P Q |
| Verif.Helpers.C143_rows | C P Q |
| Verif.Helpers.C143_smart_zip | P Q |
| Verif.Helpers.C143_unpack_dict | P |
| Verif.Helpers.C143_unpack_dict_raises | P |
| Verif.Helpers.C144_count_violates | - |
| Verif.Helpers.C144_f_range_violates | C P Q |
| Verif.Helpers.C144_multirun_violates | - |
| Verif.Helpers.C144_unpack_dict_violates | P |
| Verif.Helpers.C144_zip_shifted_partial | P Q |
| Verif.Helpers.C144_zip_shifted_violates | P Q |
| Verif.LogExceptions.C145_catch | P |
| Verif.LogExceptions.C145_logged | C P Q |
| Verif.LogExceptions.C145_raises | P Q |
| Verif.LogExceptions.C145_reraise | P |
| Verif.LogExceptions.C145_untouched | P |
| Verif.LogExceptions.C146_base_violates | P |
| Verif.LogExceptions.C146_catch_violates | P |
| Verif.LogExceptions.C146_doc_example_violates | P |
| Verif.LogExceptions.C146_exc_types_violates | P |
| Verif.LogExceptions.C146_index_violates | P |
| Verif.LogExceptions.C146_replaced_partial | C P Q |
| Verif.Coded.C147_base | C P Q |
| Verif.Coded.C147_is_instance | C P Q |
| Verif.Coded.C148_doc_example_violates | C P Q |
| Verif.Coded.C148_mixin_violates | C P Q |
| Verif.Coded.C148_repr_violates | P Q |
| Verif.Coded.C148_several_bases_violates | P Q |
| Verif.Coded.C148_sound_partial | C P Q |
| Verif.Coded.C148_str_violates | P |
| Verif.Coded.C148_texts_partial | P Q |
| Verif.JsonEncode.C149_encode | C P Q |
| Verif.JsonEncode.C149_files | C P Q |
| Verif.JsonEncode.C149_keys | C P Q |
| Verif.JsonEncode.C149_total | C P Q |
| Verif.JsonEncode.C150_file_violates | C P Q |
| Verif.JsonEncode.C150_keys_in_objects_violates | C P Q |
| Verif.JsonEncode.C150_keys_violates | C P Q |
| Verif.JsonEncode.C150_partial | C P Q |
| Verif.JsonEncode.C150_slot_partial | C P Q |
| Verif.JsonEncode.C150_slots_violates | C P Q |
| Verif.JsonEncode.C150_within_violates | C P Q |
| Verif.Closing.C151_chain | P |
| Verif.Closing.C151_close | P Q |
| Verif.Closing.C151_close_raises | P |
| Verif.Closing.C151_hint | P Q |
| Verif.Closing.C151_next | C P Q |
| Verif.Closing.C152_chain_partial | P |
| Verif.Closing.C152_chain_violates | - |
| Verif.Closing.C152_hint_partial | P |
| Verif.Closing.C152_hint_violates | P |
| Verif.Closing.C152_send_violates | P |
| Verif.Closing.C152_type_error_violates | P |
| Verif.Stdout.C153_ends | C P Q |
| Verif.Stdout.C153_result | P Q |
| Verif.Stdout.C154_deadlock_violates | C P Q |
| Verif.Stdout.C154_encoding_partial | P |
| Verif.Stdout.C154_encoding_violates | P Q |
| Verif.Stdout.C154_ends_partial | C P Q |
| Verif.DictObject.C155_apply | P Q |
| Verif.DictObject.C155_apply_plain | P Q |
| Verif.DictObject.C155_attributes | P Q |
| Verif.DictObject.C155_construct | P Q |
| Verif.DictObject.C156_copy_violates | P |
| Verif.DictObject.C156_every_dict_partial | P Q |
| Verif.DictObject.C156_every_dict_violates | P |
| Verif.DictObject.C156_names_partial | P |
| Verif.DictObject.C156_names_violates | P Q |
| Verif.DataObject.C157_eq | C P Q |
| Verif.DataObject.C157_hash | C P Q |
| Verif.DataObject.C157_init | P Q |
| Verif.DataObject.C157_round_trip | C P Q |
| Verif.DataObject.C157_to_json | P Q |
| Verif.DataObject.C158_inherited_violates | P |
| Verif.DataObject.C158_names_violates | - |
| Verif.DataObject.C158_other_partial | P Q |
| Verif.DataObject.C158_other_violates | P |
| Verif.DataObject.C158_symmetry_violates | P |
| Verif.Imports.C159_class | P |
| Verif.Imports.C159_fails | C P Q |
| Verif.Imports.C159_last | C P Q |
| Verif.Imports.C159_names | C P Q |
| Verif.Imports.C160_no_all_violates | C P Q |
| Verif.Imports.C160_top_level_violates | P Q |
| Verif.Imports.C160_underscore_violates | C P Q |
| Verif.Imports.C160_walk_partial | P Q |
| Verif.Signals.C161_aborts | C P Q |
| Verif.Signals.C161_at_least | C P Q |
| Verif.Signals.C161_ends | C P Q |
| Verif.Signals.C161_negative | C P Q |
| Verif.Signals.C161_returns_False | C P Q |
| Verif.Signals.C162_interrupt_violates | C P Q |
| Verif.Signals.C162_no_exceptions_partial | C P Q |
| Verif.Signals.C162_race_violates | C P Q |
| Verif.Signals.C163_clean | P Q |
| Verif.Signals.C163_only_then | P Q |
| Verif.Signals.C163_released | P Q |
| Verif.Signals.C163_restored | P Q |
| Verif.Signals.C164_exception_violates | P Q |
| Verif.Signals.C164_sigint_partial | P Q |
| Verif.Signals.C164_sigint_violates | P |
| Verif.Signals.C164_twice_violates | P |
| Verif.ObjectSize.C165_size | C P Q |
| Verif.ObjectSize.C166_iterators_violates | C P Q |
| Verif.ObjectSize.C166_only_looks_partial | P Q |
| Verif.ObjectSize.C166_size_partial | C P Q |
| Verif.ObjectSize.C166_slots_violates | P Q |
| Verif.ObjectSize.C166_subclass_violates | P Q |
| Verif.Rolling.C167_average | C P Q |
| Verif.Rolling.C168_floats_violates | C P Q |
| Verif.Rolling.C168_no_samples_violates | C P Q |
| Verif.Rolling.C168_small_partial | C P Q |
| Verif.Rolling.C169_counts | C P Q |
| Verif.Rolling.C169_occurrences | P Q |
| Verif.Rolling.C169_sequence | C P Q |
| Verif.Choose.C170_first | C P Q |
| Verif.Choose.C170_index | C P Q |
| Verif.Choose.C170_multiple | C P Q |
| Verif.Choose.C170_no_index | P Q |
| Verif.Choose.C170_none | P Q |
| Verif.Choose.C170_only | C P Q |
| Verif.Choose.C171_exhausts_partial | P |
| Verif.Choose.C171_exhausts_violates | P |
| Verif.Choose.C172_closed | P |
| Verif.Choose.C172_completes | P |
| Verif.Choose.C172_raises | P |
| Verif.Choose.C172_values | P |
| Verif.Choose.C173_count_partial | P Q |
| Verif.Choose.C173_once_violates | P Q |
| Verif.Choose.C173_raised_violates | P |
| Verif.Choose.C173_send_violates | P |
| Verif.Optional.C174_chain | P |
| Verif.Optional.C174_extract | P |
| Verif.Optional.C174_if_not_none | P |
| Verif.Optional.C174_missing | P |
| Verif.Optional.C174_present | P |
| Verif.Optional.C175_compare_violates | P |
| Verif.Optional.C175_hash_violates | P |
| Verif.Optional.C175_present_partial | P |
| Verif.Optional.C175_setattr_violates | P |
| Verif.Dump.C176_killed | P Q |
| Verif.Dump.C176_returned | P Q |
| Verif.Dump.C176_whom | P |
| Verif.Dump.C177_hooked_partial | P |
| Verif.Dump.C177_installed_violates | P |
| Verif.Dump.C177_stderr_violates | P Q |
| Verif.Dump.C178_accepted | P |
| Verif.Dump.C178_dumped | C P Q |
| Verif.Dump.C178_raises | P Q |
| Verif.Dump.C178_where | P Q |
| Verif.Dump.C179_fails_violates | P |
| Verif.Dump.C179_logger_violates | P Q |
| Verif.Dump.C179_none_violates | P |
| Verif.Dump.C179_overwritten_violates | P Q |
| Verif.Dump.C179_streams_partial | C P Q |
| Verif.NoConflict.C180_compatible | C P Q |
| Verif.NoConflict.C180_minimal | C P Q |
| Verif.NoConflict.C180_no_conflict | C P Q |
| Verif.NoConflict.C180_one_metaclass | C P Q |
| Verif.Docs.C181_documented | C P Q |
| Verif.Docs.C182_copied_partial | P Q |
| Verif.Docs.C182_first_only_violates | C P Q |
| Verif.Docs.C182_refused_partial | P |
| Verif.Docs.C183_nearest_violates | P Q |
| Verif.Docs.C183_others_partial | P |
| Verif.Docs.C183_shared_violates | P Q |
| Verif.Docs.C184_wrapped | P Q |
| Verif.FromDict.C185_exactly | C P Q |
| Verif.FromDict.C185_iterated | C P Q |
| Verif.FromDict.C185_list | C P Q |
| Verif.FromDict.C185_sound | C P Q |
| Verif.FromDict.C185_truth | P |
| Verif.FromDict.C186_no_type_partial | C P Q |
| Verif.FromDict.C186_unknown_type_violates | C P Q |
| Verif.FromDict.C187_environment | P Q |
| Verif.FromDict.C187_json | P Q |
| Verif.Whereis.C188_executable | P |
| Verif.Whereis.C188_found | C P Q |
| Verif.Whereis.C188_letters | P |
| Verif.Whereis.C189_directory_violates | C P Q |
| Verif.Whereis.C189_permission_violates | C P Q |
| Verif.Whereis.C189_setuid_violates | C P Q |
| Verif.Whereis.C189_sound_partial | C P Q |
| Verif.Whereis.C190_daemon | C P Q |
| Verif.Whereis.C191_group_name_violates | P |
| Verif.Whereis.C191_unknown_user_partial | P Q |
| Verif.Whereis.C191_user_first_violates | P Q |
| Verif.Loadable.C192_failure | P |
| Verif.Loadable.C192_loaded_first | P Q |
| Verif.Loadable.C192_once | C P Q |
| Verif.Loadable.C193_after_partial | C P Q |
| Verif.Loadable.C193_documented_violates | P |
| Verif.Loadable.C193_twice_violates | P |
| Verif.Small.C194_attribute | C P Q |
| Verif.Small.C194_call_method | P Q |
| Verif.Small.C194_default_return | P |
| Verif.Small.C194_execute_before | P Q |
| Verif.Small.C194_has_keys | P Q |
| Verif.Small.C194_return_as_list | C P Q |
| Verif.Small.C194_short_none | P Q |
| Verif.Small.C195_callable_parameter_violates | P |
| Verif.Small.C195_chain_partial | C P Q |
| Verif.Small.C195_index_error_violates | C P Q |
| Verif.Small.C195_parameters_partial | C P Q |
| Verif.Small.C195_twice_violates | C P Q |
| Verif.CopyArgs.C196_deep | P Q |
| Verif.CopyArgs.C196_each | P Q |
| Verif.CopyArgs.C196_shallow | P Q |
| Verif.Updates.C197_attributes | P Q |
| Verif.Updates.C197_contains | P Q |
| Verif.Updates.C197_dictionaries | P Q |
| Verif.Updates.C197_length | P |
| Verif.Shuffle.C198_together | P Q |
| Verif.Shuffle.C198_word | C P Q |
| Verif.Shuffle.C199_longer_violates | P Q |
| Verif.Shuffle.C199_shorter_partial | P Q |
| Verif.Expect.C200_empty | Q |
| Verif.Expect.C200_expected | P Q |
| Verif.Expect.C200_wrapped | P |
| Verif.Expect.C201_list_partial | P Q |
| Verif.Expect.C201_list_violates | P Q |
| Verif.TaintEnv.C202_threads | P |
| Verif.TaintEnv.C203_enabled_partial | P Q |
| Verif.TaintEnv.C203_refused_violates | P |
| Verif.TaintEnv.C203_two_threads_violates | - |
| Verif.LockedStructure.C204_again | P Q |
| Verif.LockedStructure.C204_free | P Q |
| Verif.LockedStructure.C204_not_reentrant | P Q |
| Verif.LockedStructure.C204_serial | P Q |
| Verif.SchemaBasic.C205_boolean | C P Q |
| Verif.SchemaBasic.C205_boolean_again | C P Q |
| Verif.SchemaBasic.C205_checkers | P |
| Verif.SchemaBasic.C205_contents | P Q |
| Verif.SchemaBasic.C205_equality | P |
| Verif.SchemaBasic.C205_files | P Q |
| Verif.SchemaBasic.C205_refused | P |
| Verif.SchemaBasic.C205_undecodable | P |
| Verif.SchemaBasic.C206_checks_partial | P |
| Verif.SchemaBasic.C206_infinite_violates | P |
| Verif.SchemaBasic.C206_integer_partial | P Q |
| Verif.SchemaBasic.C206_integer_values_partial | P |
| Verif.SchemaBasic.C206_missing_violates | P |
| Verif.SchemaBasic.C206_second_time_violates | P |
| Verif.SchemaBasic.C206_string_violates | C P Q |
| Verif.Trace.C207_traced | P Q |
| Verif.Trace.C208_attached_partial | P Q |
| Verif.Trace.C208_cancelled_violates | P |
| Verif.Trace.C208_closed_partial | P |
| Verif.Trace.C208_exception_violates | - |
| Verif.Trace.C208_type_error_violates | P |
| Verif.Trace.C209_exception | P Q |
| Verif.Trace.C210_nothing_partial | P Q |
| Verif.Trace.C210_traceback_violates | - |
| Verif.Trace.C210_zero_violates | P Q |
| Verif.Cassandra.C211_lazy | - |
| Verif.Cassandra.C211_parallel | C P Q |
| Verif.Cassandra.C211_wrapped | P Q |
| Verif.Metrics.C212_callable | P Q |
| Verif.Metrics.C212_labeled | - |
| Verif.Metrics.C212_uptime | P Q |
| Verif.Prometheus.C213_metrics | P Q |
| Verif.Prometheus.C213_other_paths | P |
| Verif.Prometheus.C213_served | P Q |
| Verif.Prometheus.C213_terminated | P Q |
| Verif.Prometheus.C214_all_partial | P Q |
| Verif.Prometheus.C214_lost_violates | P |
| Verif.Prometheus.C214_never_returns_violates | P Q |
| Verif.Prometheus.C214_returns_partial | P Q |
| Verif.MonitorSet.C215_atomic | C P Q |
| Verif.MonitorSet.C215_once | C P Q |
| Verif.Maintenance.C216_alive | P Q |
| Verif.Maintenance.C216_passes | C P Q |
| Verif.Maintenance.C217_iterating_violates | P Q |
| Verif.Maintenance.C217_making_violates | P Q |
| Verif.Maintenance.C217_no_deadlock_partial | P Q |
| Verif.Maintenance.C217_raising_violates | P Q |
| Verif.Bogus.C218_join | C P Q |
| Verif.Bogus.C218_life | P Q |
| Verif.Bogus.C219_each_caller | C P Q |
| Verif.Bogus.C219_once | C P Q |
| Verif.Bogus.C220_calls_partial | P Q |
| Verif.Bogus.C220_join_partial | C P Q |
| Verif.Bogus.C220_join_violates | C P Q |
| Verif.Bogus.C220_race_violates | P Q |
| Verif.Bogus.C220_returns_violates | P |
| Verif.QueueIterator.C221_alone | P Q |
| Verif.QueueIterator.C221_each_once | P |
| Verif.QueueIterator.C221_progress | P |
| Verif.SliceableDeque.C222_item | P Q |
| Verif.SliceableDeque.C222_live | C P Q |
| Verif.SliceableDeque.C222_slice | C P Q |
| Verif.Condition.C223_legal | C P Q |
| Verif.Condition.C223_locked | P Q |
| Verif.Condition.C223_told | C P Q |
| Verif.Condition.C224_kept_partial | C P Q |
| Verif.Condition.C224_lost_violates | P |
| Verif.Condition.C224_plain_violates | P Q |
| Verif.Files.Lines.C225_errors | P Q |
| Verif.Files.Lines.C225_lines | C P Q |
| Verif.Files.Lines.C226_emptied_violates | P |
| Verif.Files.Lines.C226_newlines_violates | P |
| Verif.Files.Lines.C226_sub_partial | P |
| Verif.Files.Lines.C227_null | P Q |
| Verif.Schema.C228_again_violates | P Q |
| Verif.Schema.C228_descriptor_partial | P Q |
| Verif.Schema.C228_json_partial | C P Q |
| Verif.Schema.C228_raises | P |
| Verif.MonitorCopy.C229_copy | P Q |
| Verif.MonitorCopy.C230_deepcopy_partial | C P Q |
| Verif.MonitorCopy.C230_itself_violates | P |
| Verif.AdaptMethods.C231_class_or_instance | P Q |
| Verif.AdaptMethods.C232_functions | P |
| Verif.AdaptMethods.C232_hidden | P Q |
| Verif.AdaptMethods.C233_class_violates | P Q |
| Verif.AdaptMethods.C233_memory_violates | P |
| Verif.AdaptMethods.C233_once_partial | P Q |
| Verif.PrettyPrint.C234_formatted | P Q |
| Verif.PrettyPrint.C234_printed | P Q |
| Verif.PrettyPrint.C234_str | P Q |
| Verif.Reprable.C235_distinguishes | P Q |
| Verif.Reprable.C235_repr | P Q |
| Verif.CpuThread.C236_life | P Q |
| Verif.CpuThread.C236_terminates | P Q |
| Verif.Multirun.C237_each | P Q |
| Verif.Multirun.C237_immutable | P Q |
| Verif.Multirun.C237_sequence | P Q |
| Verif.Multirun.C237_truth | P Q |
| Verif.Multirun.C237_unknown | P |
| Verif.Wraps.C238_copied | P Q |
| Verif.Wraps.C238_returns | P Q |
| Verif.Wraps.C238_stack | C P Q |
| Verif.Wraps.C238_untouched | P Q |
| Verif.Syncable.Threads.C239_cleaning_raises_violates | P |
| Verif.Syncable.Threads.C239_lost_violates | P |
| Verif.Syncable.Threads.C239_one_adds_partial | C P Q |
| Verif.Syncable.Threads.C239_order_violates | P Q |
| Verif.Seq.Small.C240_counter | C P Q |
| Verif.Seq.Small.C240_factory_raises | P |
| Verif.Seq.Small.C240_filter_out | P |
| Verif.Seq.Small.C240_filter_out_raises | P |
| Verif.Seq.Small.C240_infinite | C P Q |
| Verif.Seq.Small.C240_lazy | P Q |
| Verif.Seq.Small.C240_make_list | C P Q |
| Verif.Seq.Small.C240_make_list_atom | P |
| Verif.Seq.Small.C240_make_list_shallow | P Q |
| Verif.Seq.Small.C240_map_list | C P Q |
| Verif.Seq.Small.C240_one_tuple | C P Q |
| Verif.Seq.Small.C240_to_iterator | C P Q |
| Verif.Misc.Numbers.C241_infinity_violates | P |
| Verif.Misc.Numbers.C241_int | P |
| Verif.Misc.Numbers.C241_intify_partial | P |
| Verif.Misc.Numbers.C241_time | C P Q |
| Verif.Misc.Numbers.C241_time_monotone | C P Q |
| Verif.Misc.Numbers.C242_binary | P Q |
| Verif.Misc.Numbers.C242_every_word | P Q |
| Verif.Misc.Numbers.C242_no_choice | P Q |
| Verif.Misc.Numbers.C242_word | P Q |
| Verif.Memory.Dump.C243_dump_partial | C P Q |
| Verif.Memory.Dump.C243_repr_violates | P |
| Verif.Memory.Dump.C243_total_partial | C P Q |
| Verif.Conc.ParallelThreads.C244_alone_partial | C P Q |
| Verif.Conc.ParallelThreads.C244_fails_iff | C P Q |
| Verif.Conc.ParallelThreads.C244_own_arguments | C P Q |
| Verif.Conc.ParallelThreads.C244_own_dicts | C P Q |
| Verif.Conc.ParallelThreads.C244_two_threads_violates | P |
| Verif.Deco.Forever.C245_ends | P Q |
| Verif.Deco.Forever.C245_forever | P Q |
| Verif.Expiring.Threads.C246_expired_partial | C P Q |
| Verif.Expiring.Threads.C246_found_partial | C P Q |
| Verif.Expiring.Threads.C246_violates_lost | P Q |
| Verif.Expiring.Threads.C246_violates_overwriting | P Q |
| Verif.TaintHeap.C247_deep | C P Q |
| Verif.TaintHeap.C247_elements | C P Q |
| Verif.TaintHeap.C247_elements_when | C P Q |
| Verif.TaintHeap.C247_needs_session | P |
| Verif.TaintHeap.C247_same_contents | C P Q |
| Verif.TaintHeap.C247_succeeds | C P Q |
| Verif.TaintHeap.C247_sum | P Q |
| Verif.TaintHeap.C247_untouched | C P Q |
| Verif.TaintHeap.C248_end_partial | C P Q |
| Verif.TaintHeap.C248_succeeds_partial | C P Q |
| Verif.TaintHeap.C248_violates_cycle | P |
| Verif.TaintHeap.C248_violates_end | P |
| Verif.Metrics.CounterThreads.C249_labels | P Q |
| Verif.Metrics.CounterThreads.C249_own | P Q |
| Verif.Metrics.CounterThreads.C249_some | C P Q |
| Verif.Metrics.CounterThreads.C250_one_thread_partial | P Q |
| Verif.Metrics.CounterThreads.C250_violates_lost | P |
| Verif.Metrics.CounterThreads.C250_violates_stuck | P Q |
| Verif.Metrics.SummaryThreads.C251_latest | C P Q |
| Verif.Metrics.SummaryThreads.C251_no_raise | C P Q |
| Verif.Metrics.SummaryThreads.C252_one_thread_partial | C P Q |
| Verif.Metrics.SummaryThreads.C252_violates_grows | C P Q |
| Verif.Metrics.SummaryThreads.C252_violates_quantile | C P Q |
| Verif.Metrics.SummaryThreads.C252_violates_raise | P Q |
| Verif.Metrics.CpsThreads.C253_at_most | P Q |
| Verif.Metrics.CpsThreads.C253_latest | P Q |
| Verif.Metrics.CpsThreads.C253_one_click | P Q |
| Verif.Metrics.CpsThreads.C253_times | P Q |
| Verif.Metrics.CpsThreads.C254_one_thread_partial | C P Q |
| Verif.Metrics.CpsThreads.C254_violates_lost | P Q |
| Verif.Metrics.CpsThreads.C254_violates_raise | P Q |
| Verif.Struct.SingletonThreads.C255_key | P Q |
| Verif.Struct.SingletonThreads.C255_settled | P Q |
| Verif.Struct.SingletonThreads.C255_single_settled | P Q |
| Verif.Struct.SingletonThreads.C256_one_thread_partial | C P Q |
| Verif.Struct.SingletonThreads.C256_violates_forgotten | P |
| Verif.Struct.SingletonThreads.C256_violates_not_initialised | P |
| Verif.Struct.SingletonThreads.C256_violates_two | C P Q |
| Verif.Instr.Builder.C257_once | P Q |
| Verif.Instr.Builder.C257_settled | P Q |
| Verif.Instr.Builder.C258_one_thread_partial | P Q |
| Verif.Instr.Builder.C258_violates_raise | P |
| Verif.Instr.Builder.C258_violates_two | P |
| Verif.Metrics.EmbeddedThreads.C259_all | C P Q |
| Verif.Metrics.EmbeddedThreads.C259_at_most | C P Q |
| Verif.Metrics.EmbeddedThreads.C259_settled | C P Q |
| Verif.Metrics.EmbeddedThreads.C260_one_at_a_time_partial | C P Q |
| Verif.Metrics.EmbeddedThreads.C260_violates_missing | P |
| Verif.Metrics.EmbeddedThreads.C260_violates_two | P Q |
| Verif.Group.Threads.C261_added | C P Q |
| Verif.Group.Threads.C261_ends | P Q |
| Verif.Group.Threads.C261_once_per_call | C P Q |
| Verif.Group.Threads.C262_one_shot_partial | C P Q |
| Verif.Group.Threads.C262_stays_partial | C P Q |
| Verif.Group.Threads.C262_violates_added | P Q |
| Verif.Group.Threads.C262_violates_lost | P Q |
| Verif.Group.Threads.C262_violates_missed | P |
| Verif.Group.Threads.C262_violates_one_shot | P |
| Verif.Group.Threads.C262_violates_raise | P |
| Verif.Writeback.Threads.C263_ends | P Q |
| Verif.Writeback.Threads.C263_storage | P Q |
| Verif.Writeback.Threads.C263_storage_reached | P Q |
| Verif.Writeback.Threads.C263_values | P Q |
| Verif.Writeback.Threads.C264_one_at_a_time_partial | P Q |
| Verif.Writeback.Threads.C264_violates_delete | P Q |
| Verif.Writeback.Threads.C264_violates_set | P Q |
| Verif.Writeback.Threads.C264_violates_two_sets | P Q |
| Verif.Time.BackoffThreads.C265_no_type_error_partial | P Q |
| Verif.Time.BackoffThreads.C265_success_violates | P |
| Verif.Time.BackoffThreads.C265_two_waiting_violates | P |
| Verif.Time.BackoffThreads.C265_woken_partial | P Q |
| Verif.Time.BackoffThreads.C265_would_wait_partial | P Q |
| Verif.Time.BackoffThreads.C266_forgotten_violates | P |
| Verif.Time.BackoffThreads.C266_returns_partial | P Q |
| Verif.Futures.Th.C267_cancel_returns | P Q |
| Verif.Futures.Th.C267_changes_violates | P |
| Verif.Futures.Th.C267_done_callbacks_partial | P Q |
| Verif.Futures.Th.C267_early_violates | P |
| Verif.Futures.Th.C267_one_outcome | P Q |
| Verif.Futures.Th.C267_overwritten_violates | P |
| Verif.Futures.Th.C267_result_partial | P Q |
| Verif.Futures.Th.C268_adds | P Q |
| Verif.Futures.Th.C268_once | C P Q |
| Verif.Futures.Th.C269_becomes_done | P |
| Verif.Futures.Th.C269_no_waiting | P Q |
| Verif.Futures.Th.C269_returns | P Q |
| Verif.Metrics.HistogramThreads.C270_apart | C P Q |
| Verif.Metrics.HistogramThreads.C270_at_most | C P Q |
| Verif.Metrics.HistogramThreads.C271_decreases_violates | P Q |
| Verif.Metrics.HistogramThreads.C271_lost_violates | P Q |
| Verif.Metrics.HistogramThreads.C271_total_partial | C P Q |
| Verif.Config.C272_code_violates | P Q |
| Verif.Config.C272_not_a_dictionary_violates | P |
| Verif.Config.C272_provides_partial | P Q |
| Verif.Expiring.Threads.C273_ends | C P Q |
| Verif.Expiring.Threads.C273_in_order | C P Q |
| Verif.Expiring.SelfCleaning.C274_ends | C P Q |
| Verif.Expiring.SelfCleaning.C274_one_map | C P Q |
| Verif.Expiring.SelfCleaning.C275_assignment_violates | - |
| Verif.Expiring.SelfCleaning.C275_lookup_violates | - |
| Verif.Expiring.SelfCleaning.C275_raises_partial | C P Q |
| Verif.Expiring.SelfCleaning.C275_two_deletions_violates | - |
| Verif.Cache.Threads.C276_answered | P Q |
| Verif.Cache.Threads.C276_values | P Q |
| Verif.Cache.Threads.C277_fetched_violates | P |
| Verif.Cache.Threads.C277_kept_partial | P Q |
| Verif.Cache.Threads.C277_separate_partial | P Q |
| Verif.Cache.Threads.C277_spoilt_violates | P Q |
| Verif.Cache.Threads.C278_age_partial | P Q |
| Verif.Cache.Threads.C278_expired_violates | P |
| Verif.Cache.Failures.C279_none_partial | P Q |
| Verif.Cache.Failures.C279_none_violates | P |
| Verif.Cache.Failures.C279_values | P Q |
| Verif.Heap.Generators.C280_calls | C P Q |
| Verif.Heap.Generators.C280_next | C P Q |
| Verif.Heap.SetGenerators.C281_calls | P Q |
| Verif.Heap.SetGenerators.C281_next | C P Q |
| Verif.Heap.Ascending.C282_ascending | C P Q |
| Verif.Heap.Ascending.C282_calls | P Q |
| Verif.Syncable.Archive.C283_ascending | C P Q |
| Verif.Syncable.Archive.C283_complete_partial | C P Q |
| Verif.Syncable.Archive.C283_passed_over_violates | P Q |
| Verif.Group.Often.C284_first_violates | P |
| Verif.Group.Often.C284_interval_partial | C P Q |
| Verif.Group.Often.C284_suppressed_partial | P Q |
| Verif.Group.Often.C284_two_violates | P |
