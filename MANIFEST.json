{
 "claims": [
  {
   "property": "C01",
   "status": "proved",
   "theorems": [
    "Verif.Heap.C01_heap_refines_bag",
    "Verif.Heap.C01_pop_all_sorts"
   ],
   "note": ""
  },
  {
   "property": "C02",
   "status": "proved",
   "theorems": [
    "Verif.Heap.C02_iterators"
   ],
   "note": ""
  },
  {
   "property": "C03",
   "status": "partial",
   "theorems": [
    "Verif.Heap.C03_constructor_duplicates_violate",
    "Verif.Heap.C03_filter_map_violates",
    "Verif.Heap.C03_full_statement_is_false",
    "Verif.Heap.C03_no_duplicates_partial",
    "Verif.Heap.C03_pop_item_violates",
    "Verif.Heap.C03_set_heap_refines_set_partial"
   ],
   "note": "The full statement is false of the code (constructor duplicates, pop_item, non-injective filter_map); violations proved for every heapq, the rest proved under exactly those exclusions."
  },
  {
   "property": "C04",
   "status": "proved",
   "theorems": [
    "Verif.Heap.C04_get_timestamp_broken",
    "Verif.Heap.C04_pop_less_than_exact_cut",
    "Verif.Heap.C04_time_heap_refines_bag"
   ],
   "note": ""
  },
  {
   "property": "C05",
   "status": "partial",
   "theorems": [
    "Verif.Heap.C05_remove_violates",
    "Verif.Heap.C05_time_set_heap_refines_map_partial"
   ],
   "note": "TimeBasedSetHeap.remove leaves the item-to-timestamp index stale; violation proved, refinement proved for histories without remove."
  },
  {
   "property": "C06",
   "status": "proved",
   "theorems": [
    "Verif.SortedL.C06_conservation",
    "Verif.SortedL.C06_sorted_list_refines_sequence"
   ],
   "note": ""
  },
  {
   "property": "C07",
   "status": "partial",
   "theorems": [
    "Verif.SortedL.C07_positions_bijective",
    "Verif.SortedL.C07_ranking_refines_sequence",
    "Verif.SortedL.C07_removed_element_keeps_rank_violates"
   ],
   "note": "The statement as written is false of the unchanged code at the points shown by C07_removed_element_keeps_rank_violates (see DESIGN.md, \"Where the code disagrees with a property\"). Proved without restriction: C07_positions_bijective, C07_ranking_refines_sequence."
  },
  {
   "property": "C08",
   "status": "proved",
   "theorems": [
    "Verif.LRU.C08_lru_evicts_least_recently_used"
   ],
   "note": ""
  },
  {
   "property": "C09",
   "status": "proved",
   "theorems": [
    "Verif.Cache.C09_discards_least_recently_used",
    "Verif.Cache.C09_lookup_is_a_use",
    "Verif.Cache.C09_lru_cache_bounded",
    "Verif.Cache.C09_use_order"
   ],
   "note": ""
  },
  {
   "property": "C10",
   "status": "partial",
   "theorems": [
    "Verif.Cache.C10_cache_dict_refines_memory_partial",
    "Verif.Cache.C10_custom_time_getter_violates",
    "Verif.Cache.C10_feed_timestamp_zero_violates",
    "Verif.Cache.C10_never_returns_expired_partial"
   ],
   "note": "The statement as written is false of the unchanged code at the points shown by C10_custom_time_getter_violates, C10_feed_timestamp_zero_violates (see DESIGN.md, \"Where the code disagrees with a property\"). Proved with those points excluded: C10_cache_dict_refines_memory_partial, C10_never_returns_expired_partial."
  },
  {
   "property": "C11",
   "status": "partial",
   "theorems": [
    "Verif.Cache.C11_failure_remembered_partial",
    "Verif.Cache.C11_feed_is_masked_violates",
    "Verif.Cache.C11_invalidate_keeps_failure_violates",
    "Verif.Cache.C11_value_replaces_failure_partial"
   ],
   "note": "The statement as written is false of the unchanged code at the points shown by C11_feed_is_masked_violates, C11_invalidate_keeps_failure_violates (see DESIGN.md, \"Where the code disagrees with a property\"). Proved with those points excluded: C11_failure_remembered_partial, C11_value_replaces_failure_partial."
  },
  {
   "property": "C12",
   "status": "partial",
   "theorems": [
    "Verif.Expiring.C12_contains_raises_after_dead_lookup_violates",
    "Verif.Expiring.C12_delete_absent_violates",
    "Verif.Expiring.C12_expiring_dict_any_history_partial",
    "Verif.Expiring.C12_expiring_dict_refines_partial",
    "Verif.Expiring.C12_len_raises_after_dead_lookup_violates"
   ],
   "note": "The statement as written is false of the unchanged code at the points shown by C12_contains_raises_after_dead_lookup_violates, C12_delete_absent_violates, C12_len_raises_after_dead_lookup_violates (see DESIGN.md, \"Where the code disagrees with a property\"). Proved with those points excluded: C12_expiring_dict_any_history_partial, C12_expiring_dict_refines_partial."
  },
  {
   "property": "C13",
   "status": "partial",
   "theorems": [
    "Verif.Expiring.C13_cleanup_frees_defaults",
    "Verif.Expiring.C13_default_dict_is_total_map_partial",
    "Verif.Expiring.C13_in_place_update_lost_violates",
    "Verif.Expiring.C13_in_place_update_never_kept_violates",
    "Verif.Expiring.C13_iteration_is_empty_violates"
   ],
   "note": "The statement as written is false of the unchanged code at the points shown by C13_in_place_update_lost_violates, C13_in_place_update_never_kept_violates, C13_iteration_is_empty_violates (see DESIGN.md, \"Where the code disagrees with a property\"). Proved with those points excluded: C13_default_dict_is_total_map_partial. Proved without restriction: C13_cleanup_frees_defaults."
  },
  {
   "property": "C14",
   "status": "partial",
   "theorems": [
    "Verif.Writeback.C14_deleted_key_returns_violates",
    "Verif.Writeback.C14_more_workers_partial",
    "Verif.Writeback.C14_plain_dictionary_partial",
    "Verif.Writeback.C14_storage_stale_violates",
    "Verif.Writeback.C14_workers_can_drain"
   ],
   "note": "The statement as written is false of the unchanged code at the points shown by C14_deleted_key_returns_violates, C14_storage_stale_violates (see DESIGN.md, \"Where the code disagrees with a property\"). Proved with those points excluded: C14_more_workers_partial, C14_plain_dictionary_partial. Proved without restriction: C14_workers_can_drain."
  },
  {
   "property": "C15",
   "status": "partial",
   "theorems": [
    "Verif.Syncable.C15_archive_empty_violates",
    "Verif.Syncable.C15_confirmed_again_violates",
    "Verif.Syncable.C15_key_zero_violates",
    "Verif.Syncable.C15_maximum_ignored_violates",
    "Verif.Syncable.C15_memory_bounded",
    "Verif.Syncable.C15_nothing_in_memory_violates",
    "Verif.Syncable.C15_returns_none_violates",
    "Verif.Syncable.C15_series_partial"
   ],
   "note": "The statement as written is false of the unchanged code at the points shown by C15_archive_empty_violates, C15_confirmed_again_violates, C15_key_zero_violates, C15_maximum_ignored_violates, C15_nothing_in_memory_violates, C15_returns_none_violates (see DESIGN.md, \"Where the code disagrees with a property\"). Proved with those points excluded: C15_series_partial. Proved without restriction: C15_memory_bounded."
  },
  {
   "property": "C16",
   "status": "partial",
   "theorems": [
    "Verif.Matrix.C16_bool_inverted_violates",
    "Verif.Matrix.C16_box_unique",
    "Verif.Matrix.C16_delete_last_violates",
    "Verif.Matrix.C16_delete_missing_row_violates",
    "Verif.Matrix.C16_matrix_partial",
    "Verif.Matrix.C16_max_partial",
    "Verif.Matrix.C16_max_violates",
    "Verif.Matrix.C16_negative_read_violates",
    "Verif.Matrix.C16_negative_write_violates"
   ],
   "note": "The statement as written is false of the unchanged code at the points shown by C16_bool_inverted_violates, C16_delete_last_violates, C16_delete_missing_row_violates, C16_max_violates, C16_negative_read_violates, C16_negative_write_violates (see DESIGN.md, \"Where the code disagrees with a property\"). Proved with those points excluded: C16_matrix_partial, C16_max_partial. Proved without restriction: C16_box_unique."
  },
  {
   "property": "C17",
   "status": "partial",
   "theorems": [
    "Verif.Ids.Alloc.C17_threads_distinct_partial",
    "Verif.Ids.Alloc.C17_threads_partial",
    "Verif.Ids.C17_allocator_partial",
    "Verif.Ids.C17_any_limit_partial",
    "Verif.Ids.C17_beyond_limit_violates",
    "Verif.Ids.C17_negative_start_violates",
    "Verif.Ids.C17_zero_limit_violates"
   ],
   "note": "The statement as written is false of the unchanged code at the points shown by C17_beyond_limit_violates, C17_negative_start_violates, C17_zero_limit_violates (see DESIGN.md, \"Where the code disagrees with a property\"). Proved with those points excluded: C17_threads_distinct_partial, C17_threads_partial, C17_allocator_partial, C17_any_limit_partial."
  },
  {
   "property": "C18",
   "status": "proved",
   "theorems": [
    "Verif.Ids.C18_consecutive",
    "Verif.Ids.C18_no_less_than",
    "Verif.Ids.C18_strictly_increasing",
    "Verif.Ids.C18_threads"
   ],
   "note": ""
  },
  {
   "property": "C19",
   "status": "partial",
   "theorems": [
    "Verif.Group.C19_added_twice_violates",
    "Verif.Group.C19_all_cancelled_violates",
    "Verif.Group.C19_failure_forgets_violates",
    "Verif.Group.C19_group_partial",
    "Verif.Group.C19_has_cancelled_violates",
    "Verif.Group.C19_reentrant"
   ],
   "note": "The statement as written is false of the unchanged code at the points shown by C19_added_twice_violates, C19_all_cancelled_violates, C19_failure_forgets_violates, C19_has_cancelled_violates (see DESIGN.md, \"Where the code disagrees with a property\"). Proved with those points excluded: C19_group_partial. Proved without restriction: C19_reentrant."
  },
  {
   "property": "C20",
   "status": "proved",
   "theorems": [
    "Verif.Conc.C20_atomic_number",
    "Verif.Conc.C20_linearizable",
    "Verif.Conc.C20_linearizable_always",
    "Verif.Conc.C20_mutual_exclusion",
    "Verif.Conc.C20_no_deadlock",
    "Verif.Conc.C20_no_lost_update",
    "Verif.Conc.C20_serializable"
   ],
   "note": ""
  },
  {
   "property": "C21",
   "status": "partial",
   "theorems": [
    "Verif.PQueue.C21_delivered_to_caller",
    "Verif.PQueue.C21_empty",
    "Verif.PQueue.C21_fifo_once",
    "Verif.PQueue.C21_lost_wakeup_violates",
    "Verif.PQueue.C21_peek_takes_wakeup_violates",
    "Verif.PQueue.C21_woken_partial"
   ],
   "note": "The statement as written is false of the unchanged code at the points shown by C21_lost_wakeup_violates, C21_peek_takes_wakeup_violates (see DESIGN.md, \"Where the code disagrees with a property\"). Proved with those points excluded: C21_woken_partial. Proved without restriction: C21_delivered_to_caller, C21_empty, C21_fifo_once."
  },
  {
   "property": "C22",
   "status": "partial",
   "theorems": [
    "Verif.Futures.C22_callback",
    "Verif.Futures.C22_callback_done",
    "Verif.Futures.C22_callback_only_one",
    "Verif.Futures.C22_cancel_partial",
    "Verif.Futures.C22_cancel_reports",
    "Verif.Futures.C22_cancel_violates",
    "Verif.Futures.C22_exception",
    "Verif.Futures.C22_exception_raises",
    "Verif.Futures.C22_result",
    "Verif.Futures.C22_result_no_limit",
    "Verif.Futures.C22_result_raises_partial",
    "Verif.Futures.C22_result_returns",
    "Verif.Futures.C22_result_violates",
    "Verif.Futures.C22_set_result_partial",
    "Verif.Futures.C22_set_result_raises",
    "Verif.Futures.C22_set_result_violates",
    "Verif.Futures.C22_start_partial",
    "Verif.Futures.C22_start_reports",
    "Verif.Futures.C22_start_violates"
   ],
   "note": "The statement as written is false of the unchanged code at the points shown by C22_cancel_violates, C22_result_violates, C22_set_result_violates, C22_start_violates (see DESIGN.md, \"Where the code disagrees with a property\"). Proved with those points excluded: C22_cancel_partial, C22_result_raises_partial, C22_set_result_partial, C22_start_partial. Proved without restriction: C22_callback, C22_callback_done, C22_callback_only_one, C22_cancel_reports, C22_exception, C22_exception_raises, C22_result, C22_result_no_limit, C22_result_returns, C22_set_result_raises, C22_start_reports."
  },
  {
   "property": "C23",
   "status": "partial",
   "theorems": [
    "Verif.Pool.C23_close_race_violates",
    "Verif.Pool.C23_close_tears_down",
    "Verif.Pool.C23_closed_partial",
    "Verif.Pool.C23_idle_partial",
    "Verif.Pool.C23_life_cycle",
    "Verif.Pool.C23_max_cycle",
    "Verif.Pool.C23_max_number_violates",
    "Verif.Pool.C23_release_after_close_violates"
   ],
   "note": "The statement as written is false of the unchanged code at the points shown by C23_close_race_violates, C23_max_number_violates, C23_release_after_close_violates (see DESIGN.md, \"Where the code disagrees with a property\"). Proved with those points excluded: C23_closed_partial, C23_idle_partial. Proved without restriction: C23_close_tears_down, C23_life_cycle, C23_max_cycle."
  },
  {
   "property": "C24",
   "status": "partial",
   "theorems": [
    "Verif.Deleter.C24_backward_loop_partial",
    "Verif.Deleter.C24_backward_violates",
    "Verif.Deleter.C24_dict",
    "Verif.Deleter.C24_dict_loop",
    "Verif.Deleter.C24_for_loop",
    "Verif.Deleter.C24_list_partial",
    "Verif.Deleter.C24_prev_violates",
    "Verif.Deleter.C24_second_round_violates"
   ],
   "note": "The statement as written is false of the unchanged code at the points shown by C24_backward_violates, C24_prev_violates, C24_second_round_violates (see DESIGN.md, \"Where the code disagrees with a property\"). Proved with those points excluded: C24_backward_loop_partial, C24_list_partial. Proved without restriction: C24_dict, C24_dict_loop, C24_for_loop."
  },
  {
   "property": "C25",
   "status": "partial",
   "theorems": [
    "Verif.Merge.C25_associative_partial",
    "Verif.Merge.C25_associative_violates",
    "Verif.Merge.C25_entry",
    "Verif.Merge.C25_keys",
    "Verif.Merge.C25_merge",
    "Verif.Merge.C25_neutral",
    "Verif.Merge.C25_other",
    "Verif.Merge.C25_second_argument_violates"
   ],
   "note": "The statement as written is false of the unchanged code at the points shown by C25_associative_violates, C25_second_argument_violates (see DESIGN.md, \"Where the code disagrees with a property\"). Proved with those points excluded: C25_associative_partial. Proved without restriction: C25_entry, C25_keys, C25_merge, C25_neutral, C25_other."
  },
  {
   "property": "C26",
   "status": "partial",
   "theorems": [
    "Verif.Config.C26_alternative",
    "Verif.Config.C26_code",
    "Verif.Config.C26_last_atom",
    "Verif.Config.C26_merging",
    "Verif.Config.C26_merging_fails",
    "Verif.Config.C26_object",
    "Verif.Config.C26_optional_partial",
    "Verif.Config.C26_optional_violates",
    "Verif.Config.C26_overriding",
    "Verif.Config.C26_provide_again_violates"
   ],
   "note": "The statement as written is false of the unchanged code at the points shown by C26_optional_violates, C26_provide_again_violates (see DESIGN.md, \"Where the code disagrees with a property\"). Proved with those points excluded: C26_optional_partial. Proved without restriction: C26_alternative, C26_code, C26_last_atom, C26_merging, C26_merging_fails, C26_object, C26_overriding."
  },
  {
   "property": "C27",
   "status": "partial",
   "theorems": [
    "Verif.MergeList.C27_commutative_partial",
    "Verif.MergeList.C27_merge_partial",
    "Verif.MergeList.C27_recursion_violates"
   ],
   "note": "The statement as written is false of the unchanged code at the points shown by C27_recursion_violates (see DESIGN.md, \"Where the code disagrees with a property\"). Proved with those points excluded: C27_commutative_partial, C27_merge_partial."
  },
  {
   "property": "C28",
   "status": "partial",
   "theorems": [
    "Verif.MergeSeries.C28_empty",
    "Verif.MergeSeries.C28_equal_violates",
    "Verif.MergeSeries.C28_merge_partial",
    "Verif.MergeSeries.C28_none",
    "Verif.MergeSeries.C28_raises_violates",
    "Verif.MergeSeries.C28_twice_violates",
    "Verif.MergeSeries.C28_values"
   ],
   "note": "The statement as written is false of the unchanged code at the points shown by C28_equal_violates, C28_raises_violates, C28_twice_violates (see DESIGN.md, \"Where the code disagrees with a property\"). Proved with those points excluded: C28_merge_partial. Proved without restriction: C28_empty, C28_none, C28_values."
  },
  {
   "property": "C29",
   "status": "partial",
   "theorems": [
    "Verif.Parser.C29_consecutive",
    "Verif.Parser.C29_length_violates",
    "Verif.Parser.C29_new_partial",
    "Verif.Parser.C29_offset_violates",
    "Verif.Parser.C29_reads_partial",
    "Verif.Parser.C29_zero_violates"
   ],
   "note": "The statement as written is false of the unchanged code at the points shown by C29_length_violates, C29_offset_violates, C29_zero_violates (see DESIGN.md, \"Where the code disagrees with a property\"). Proved with those points excluded: C29_new_partial, C29_reads_partial. Proved without restriction: C29_consecutive."
  },
  {
   "property": "C30",
   "status": "partial",
   "theorems": [
    "Verif.Time.C30_garbage_violates",
    "Verif.Time.C30_number",
    "Verif.Time.C30_plain",
    "Verif.Time.C30_unit",
    "Verif.Time.C30_unparseable",
    "Verif.Time.C30_word_partial",
    "Verif.Time.C30_words_violates"
   ],
   "note": "The statement as written is false of the unchanged code at the points shown by C30_garbage_violates, C30_words_violates (see DESIGN.md, \"Where the code disagrees with a property\"). Proved with those points excluded: C30_word_partial. Proved without restriction: C30_number, C30_plain, C30_unit, C30_unparseable."
  },
  {
   "property": "C31",
   "status": "partial",
   "theorems": [
    "Verif.Time.C31_available_violates",
    "Verif.Time.C31_bounds",
    "Verif.Time.C31_history_partial",
    "Verif.Time.C31_launch",
    "Verif.Time.C31_limit_violates"
   ],
   "note": "The statement as written is false of the unchanged code at the points shown by C31_available_violates, C31_limit_violates (see DESIGN.md, \"Where the code disagrees with a property\"). Proved with those points excluded: C31_history_partial. Proved without restriction: C31_bounds, C31_launch."
  },
  {
   "property": "C32",
   "status": "partial",
   "theorems": [
    "Verif.Seq.C32_add_next",
    "Verif.Seq.C32_add_next_skip",
    "Verif.Seq.C32_add_next_wrap",
    "Verif.Seq.C32_group_quantity",
    "Verif.Seq.C32_group_zero",
    "Verif.Seq.C32_half_cartesian",
    "Verif.Seq.C32_half_cartesian_violates",
    "Verif.Seq.C32_is_last_partial",
    "Verif.Seq.C32_is_last_violates"
   ],
   "note": "The statement as written is false of the unchanged code at the points shown by C32_half_cartesian_violates, C32_is_last_violates (see DESIGN.md, \"Where the code disagrees with a property\"). Proved with those points excluded: C32_is_last_partial. Proved without restriction: C32_add_next, C32_add_next_skip, C32_add_next_wrap, C32_group_quantity, C32_group_zero, C32_half_cartesian."
  },
  {
   "property": "C33",
   "status": "partial",
   "theorems": [
    "Verif.Seq.C33_even_odd",
    "Verif.Seq.C33_n_th",
    "Verif.Seq.C33_shift_partial",
    "Verif.Seq.C33_shift_violates",
    "Verif.Seq.C33_skip_first_partial",
    "Verif.Seq.C33_skip_first_violates",
    "Verif.Seq.C33_stop_after_partial",
    "Verif.Seq.C33_stop_after_violates",
    "Verif.Seq.C33_take_n_partial",
    "Verif.Seq.C33_take_n_violates"
   ],
   "note": "The statement as written is false of the unchanged code at the points shown by C33_shift_violates, C33_skip_first_violates, C33_stop_after_violates, C33_take_n_violates (see DESIGN.md, \"Where the code disagrees with a property\"). Proved with those points excluded: C33_shift_partial, C33_skip_first_partial, C33_stop_after_partial, C33_take_n_partial. Proved without restriction: C33_even_odd, C33_n_th."
  },
  {
   "property": "C34",
   "status": "proved",
   "theorems": [
    "Verif.Seq.C34_distinct",
    "Verif.Seq.C34_unhashable",
    "Verif.Seq.C34_unique"
   ],
   "note": ""
  },
  {
   "property": "C35",
   "status": "partial",
   "theorems": [
    "Verif.Seq.C35_broad_partial",
    "Verif.Seq.C35_deep_partial",
    "Verif.Seq.C35_leaves",
    "Verif.Seq.C35_root_violates",
    "Verif.Seq.C35_same"
   ],
   "note": "The statement as written is false of the unchanged code at the points shown by C35_root_violates (see DESIGN.md, \"Where the code disagrees with a property\"). Proved with those points excluded: C35_broad_partial, C35_deep_partial. Proved without restriction: C35_leaves, C35_same."
  },
  {
   "property": "C36",
   "status": "partial",
   "theorems": [
    "Verif.Seq.C36_adapter_partial",
    "Verif.Seq.C36_consumed_violates",
    "Verif.Seq.C36_index",
    "Verif.Seq.C36_iterate_violates",
    "Verif.Seq.C36_negative_violates",
    "Verif.Seq.C36_slice",
    "Verif.Seq.C36_slice_violates",
    "Verif.Seq.C36_wrapper_partial"
   ],
   "note": "The statement as written is false of the unchanged code at the points shown by C36_consumed_violates, C36_iterate_violates, C36_negative_violates, C36_slice_violates (see DESIGN.md, \"Where the code disagrees with a property\"). Proved with those points excluded: C36_adapter_partial, C36_wrapper_partial. Proved without restriction: C36_index, C36_slice."
  },
  {
   "property": "C37",
   "status": "partial",
   "theorems": [
    "Verif.Deco.C37_at_most",
    "Verif.Deco.C37_between_raises",
    "Verif.Deco.C37_callback_raises",
    "Verif.Deco.C37_failure_partial",
    "Verif.Deco.C37_forever",
    "Verif.Deco.C37_on_success_violates",
    "Verif.Deco.C37_success_partial",
    "Verif.Deco.C37_unlisted",
    "Verif.Deco.C37_zero_violates"
   ],
   "note": "The statement as written is false of the unchanged code at the points shown by C37_on_success_violates, C37_zero_violates (see DESIGN.md, \"Where the code disagrees with a property\"). Proved with those points excluded: C37_failure_partial, C37_success_partial. Proved without restriction: C37_at_most, C37_between_raises, C37_callback_raises, C37_forever, C37_unlisted."
  },
  {
   "property": "C38",
   "status": "partial",
   "theorems": [
    "Verif.Deco.C38_concurrent_violates",
    "Verif.Deco.C38_fresh",
    "Verif.Deco.C38_kwargs_violates",
    "Verif.Deco.C38_overwritten_violates",
    "Verif.Deco.C38_sequential"
   ],
   "note": "The statement as written is false of the unchanged code at the points shown by C38_concurrent_violates, C38_kwargs_violates, C38_overwritten_violates (see DESIGN.md, \"Where the code disagrees with a property\"). Proved without restriction: C38_fresh, C38_sequential."
  },
  {
   "property": "C39",
   "status": "partial",
   "theorems": [
    "Verif.Metrics.C39_buckets_sum",
    "Verif.Metrics.C39_counter",
    "Verif.Metrics.C39_counter_labels",
    "Verif.Metrics.C39_histogram",
    "Verif.Metrics.C39_histogram_labels",
    "Verif.Metrics.C39_one_bucket",
    "Verif.Metrics.C39_partition",
    "Verif.Metrics.C39_simple",
    "Verif.Metrics.C39_submetrics",
    "Verif.Metrics.C39_summary_accepts",
    "Verif.Metrics.C39_summary_labels_partial",
    "Verif.Metrics.C39_summary_partial",
    "Verif.Metrics.C39_summary_unlabelled_violates",
    "Verif.Metrics.C39_summary_zero_violates"
   ],
   "note": "The statement as written is false of the unchanged code at the points shown by C39_summary_unlabelled_violates, C39_summary_zero_violates (see DESIGN.md, \"Where the code disagrees with a property\"). Proved with those points excluded: C39_summary_labels_partial, C39_summary_partial. Proved without restriction: C39_buckets_sum, C39_counter, C39_counter_labels, C39_histogram, C39_histogram_labels, C39_one_bucket, C39_partition, C39_simple, C39_submetrics, C39_summary_accepts."
  },
  {
   "property": "C40",
   "status": "partial",
   "theorems": [
    "Verif.Metrics.C40_boundary_violates",
    "Verif.Metrics.C40_cps_labels_partial",
    "Verif.Metrics.C40_cps_partial",
    "Verif.Metrics.C40_exact",
    "Verif.Metrics.C40_periods",
    "Verif.Metrics.C40_unlabelled_violates"
   ],
   "note": "The statement as written is false of the unchanged code at the points shown by C40_boundary_violates, C40_unlabelled_violates (see DESIGN.md, \"Where the code disagrees with a property\"). Proved with those points excluded: C40_cps_labels_partial, C40_cps_partial. Proved without restriction: C40_exact, C40_periods."
  },
  {
   "property": "C41",
   "status": "partial",
   "theorems": [
    "Verif.Metrics.C41_alternate",
    "Verif.Metrics.C41_linkfail",
    "Verif.Metrics.C41_report_links_partial",
    "Verif.Metrics.C41_report_partial",
    "Verif.Metrics.C41_status",
    "Verif.Metrics.C41_status_violates",
    "Verif.Metrics.C41_zero_violates"
   ],
   "note": "The statement as written is false of the unchanged code at the points shown by C41_status_violates, C41_zero_violates (see DESIGN.md, \"Where the code disagrees with a property\"). Proved with those points excluded: C41_report_links_partial, C41_report_partial. Proved without restriction: C41_alternate, C41_linkfail, C41_status."
  },
  {
   "property": "C42",
   "status": "partial",
   "theorems": [
    "Verif.Metrics.C42_add_entry_partial",
    "Verif.Metrics.C42_add_partial",
    "Verif.Metrics.C42_internals",
    "Verif.Metrics.C42_labels",
    "Verif.Metrics.C42_one_per_key_partial",
    "Verif.Metrics.C42_prefix",
    "Verif.Metrics.C42_prefix_violates",
    "Verif.Metrics.C42_set",
    "Verif.Metrics.C42_strict_eq"
   ],
   "note": "The statement as written is false of the unchanged code at the points shown by C42_prefix_violates (see DESIGN.md, \"Where the code disagrees with a property\"). Proved with those points excluded: C42_add_entry_partial, C42_add_partial, C42_one_per_key_partial. Proved without restriction: C42_internals, C42_labels, C42_prefix, C42_set, C42_strict_eq."
  },
  {
   "property": "C43",
   "status": "partial",
   "theorems": [
    "Verif.Queue.C43_empty",
    "Verif.Queue.C43_fifo",
    "Verif.Queue.C43_get_any_concurrent_partial",
    "Verif.Queue.C43_get_any_partial",
    "Verif.Queue.C43_get_any_violates",
    "Verif.Queue.C43_get_solo",
    "Verif.Queue.C43_given",
    "Verif.Queue.C43_no_key_error",
    "Verif.Queue.PushIter.C43_none_lost",
    "Verif.Queue.PushIter.C43_push_iterable"
   ],
   "note": "The statement as written is false of the unchanged code at the points shown by C43_get_any_violates (see DESIGN.md, \"Where the code disagrees with a property\"). Proved with those points excluded: C43_get_any_concurrent_partial, C43_get_any_partial. Proved without restriction: C43_empty, C43_fifo, C43_get_solo, C43_given, C43_no_key_error, C43_none_lost, C43_push_iterable."
  },
  {
   "property": "C44",
   "status": "proved",
   "theorems": [
    "Verif.Memory.C44_pressure",
    "Verif.Memory.C44_raised_is_final"
   ],
   "note": ""
  },
  {
   "property": "C45",
   "status": "partial",
   "theorems": [
    "Verif.Os.C45_exclusive_partial",
    "Verif.Os.C45_locked",
    "Verif.Os.C45_not_found_violates",
    "Verif.Os.C45_own_pid_violates",
    "Verif.Os.C45_release_partial",
    "Verif.Os.C45_takeover",
    "Verif.Os.C45_two_holders_violates"
   ],
   "note": "The statement as written is false of the unchanged code at the points shown by C45_not_found_violates, C45_own_pid_violates, C45_two_holders_violates (see DESIGN.md, \"Where the code disagrees with a property\"). Proved with those points excluded: C45_exclusive_partial, C45_release_partial. Proved without restriction: C45_locked, C45_takeover."
  },
  {
   "property": "C46",
   "status": "partial",
   "theorems": [
    "Verif.Db.C46_callable_violates",
    "Verif.Db.C46_cursor_partial",
    "Verif.Db.C46_cursor_violates",
    "Verif.Db.C46_exact",
    "Verif.Db.C46_never_both",
    "Verif.Db.C46_transaction"
   ],
   "note": "The statement as written is false of the unchanged code at the points shown by C46_callable_violates, C46_cursor_violates (see DESIGN.md, \"Where the code disagrees with a property\"). Proved with those points excluded: C46_cursor_partial. Proved without restriction: C46_exact, C46_never_both, C46_transaction."
  },
  {
   "property": "C47",
   "status": "partial",
   "theorems": [
    "Verif.Heap.C47_heap_copy",
    "Verif.Heap.C47_time_heap_copy_violates"
   ],
   "note": "The statement as written is false of the unchanged code at the points shown by C47_time_heap_copy_violates (see DESIGN.md, \"Where the code disagrees with a property\"). Proved without restriction: C47_heap_copy."
  },
  {
   "property": "C48",
   "status": "partial",
   "theorems": [
    "Verif.Group.C48_first_call_violates",
    "Verif.Group.C48_no_oftener_partial",
    "Verif.Group.C48_not_suppressed_partial",
    "Verif.Group.C48_raised_violates"
   ],
   "note": "The statement as written is false of the unchanged code at the points shown by C48_first_call_violates, C48_raised_violates (see DESIGN.md, \"Where the code disagrees with a property\"). Proved with those points excluded: C48_no_oftener_partial, C48_not_suppressed_partial."
  },
  {
   "property": "C49",
   "status": "partial",
   "theorems": [
    "Verif.Conc.C49_crossed_comparison_violates",
    "Verif.Conc.C49_ordered_partial",
    "Verif.Conc.C49_self_comparison_violates"
   ],
   "note": "The statement as written is false of the unchanged code at the points shown by C49_crossed_comparison_violates, C49_self_comparison_violates (see DESIGN.md, \"Where the code disagrees with a property\"). Proved with those points excluded: C49_ordered_partial."
  },
  {
   "property": "C50",
   "status": "partial",
   "theorems": [
    "Verif.Conc.C50_lost_wakeup_violates",
    "Verif.Conc.C50_quiet_update_violates",
    "Verif.Conc.C50_returns_only_when_equal",
    "Verif.Conc.C50_timeout_outcome",
    "Verif.Conc.C50_timeout_returns",
    "Verif.Conc.C50_timeout_violates",
    "Verif.Conc.C50_woken_partial"
   ],
   "note": "The statement as written is false of the unchanged code at the points shown by C50_lost_wakeup_violates, C50_quiet_update_violates, C50_timeout_violates (see DESIGN.md, \"Where the code disagrees with a property\"). Proved with those points excluded: C50_woken_partial. Proved without restriction: C50_returns_only_when_equal, C50_timeout_outcome, C50_timeout_returns."
  },
  {
   "property": "C51",
   "status": "partial",
   "theorems": [
    "Verif.Futures.C51_cancel",
    "Verif.Futures.C51_cancel_violates",
    "Verif.Futures.C51_exception_partial",
    "Verif.Futures.C51_exception_violates",
    "Verif.Futures.C51_final",
    "Verif.Futures.C51_pre_done_partial",
    "Verif.Futures.C51_recover_violates"
   ],
   "note": "The statement as written is false of the unchanged code at the points shown by C51_cancel_violates, C51_exception_violates, C51_recover_violates (see DESIGN.md, \"Where the code disagrees with a property\"). Proved with those points excluded: C51_exception_partial, C51_pre_done_partial. Proved without restriction: C51_cancel, C51_final."
  },
  {
   "property": "C52",
   "status": "partial",
   "theorems": [
    "Verif.Futures.C52_cancelled_violates",
    "Verif.Futures.C52_hooks_partial"
   ],
   "note": "The statement as written is false of the unchanged code at the points shown by C52_cancelled_violates (see DESIGN.md, \"Where the code disagrees with a property\"). Proved with those points excluded: C52_hooks_partial."
  },
  {
   "property": "C53",
   "status": "partial",
   "theorems": [
    "Verif.Futures.C53_cancel_violates",
    "Verif.Futures.C53_cancelled_partial",
    "Verif.Futures.C53_constructor_violates",
    "Verif.Futures.C53_source_cancelled_violates",
    "Verif.Futures.C53_wrapping_partial"
   ],
   "note": "The statement as written is false of the unchanged code at the points shown by C53_cancel_violates, C53_constructor_violates, C53_source_cancelled_violates (see DESIGN.md, \"Where the code disagrees with a property\"). Proved with those points excluded: C53_cancelled_partial, C53_wrapping_partial."
  },
  {
   "property": "C54",
   "status": "partial",
   "theorems": [
    "Verif.Pool.C54_context_manager_violates",
    "Verif.Pool.C54_invalidate_violates",
    "Verif.Pool.C54_returns_partial",
    "Verif.Pool.C54_zero_violates"
   ],
   "note": "The statement as written is false of the unchanged code at the points shown by C54_context_manager_violates, C54_invalidate_violates, C54_zero_violates (see DESIGN.md, \"Where the code disagrees with a property\"). Proved with those points excluded: C54_returns_partial."
  },
  {
   "property": "C55",
   "status": "proved",
   "theorems": [
    "Verif.Config.C55_directory",
    "Verif.Config.C55_directory_silent",
    "Verif.Config.C55_file",
    "Verif.Config.C55_format"
   ],
   "note": ""
  },
  {
   "property": "C56",
   "status": "partial",
   "theorems": [
    "Verif.Time.C56_never_stops",
    "Verif.Time.C56_resume_violates",
    "Verif.Time.C56_stopwatch_partial"
   ],
   "note": "The statement as written is false of the unchanged code at the points shown by C56_resume_violates (see DESIGN.md, \"Where the code disagrees with a property\"). Proved with those points excluded: C56_stopwatch_partial. Proved without restriction: C56_never_stops."
  },
  {
   "property": "C57",
   "status": "partial",
   "theorems": [
    "Verif.Time.C57_available_partial",
    "Verif.Time.C57_missed_violates",
    "Verif.Time.C57_returns",
    "Verif.Time.C57_safe_partial",
    "Verif.Time.C57_timeout_violates",
    "Verif.Time.C57_wakes"
   ],
   "note": "The statement as written is false of the unchanged code at the points shown by C57_missed_violates, C57_timeout_violates (see DESIGN.md, \"Where the code disagrees with a property\"). Proved with those points excluded: C57_available_partial, C57_safe_partial. Proved without restriction: C57_returns, C57_wakes."
  },
  {
   "property": "C58",
   "status": "partial",
   "theorems": [
    "Verif.Seq.C58_already_seen_partial",
    "Verif.Seq.C58_mixed_violates"
   ],
   "note": "The statement as written is false of the unchanged code at the points shown by C58_mixed_violates (see DESIGN.md, \"Where the code disagrees with a property\"). Proved with those points excluded: C58_already_seen_partial."
  },
  {
   "property": "C59",
   "status": "partial",
   "theorems": [
    "Verif.Metrics.C59_collection_partial",
    "Verif.Metrics.C59_json_partial",
    "Verif.Metrics.C59_reserved_violates"
   ],
   "note": "The statement as written is false of the unchanged code at the points shown by C59_reserved_violates (see DESIGN.md, \"Where the code disagrees with a property\"). Proved with those points excluded: C59_collection_partial, C59_json_partial."
  },
  {
   "property": "C60",
   "status": "partial",
   "theorems": [
    "Verif.Metrics.C60_clone_violates",
    "Verif.Metrics.C60_cps_partial",
    "Verif.Metrics.C60_histogram_violates",
    "Verif.Metrics.C60_internal_partial",
    "Verif.Metrics.C60_linkfail",
    "Verif.Metrics.C60_simple_partial",
    "Verif.Metrics.C60_summary_partial",
    "Verif.Prometheus.C60_prometheus"
   ],
   "note": "The statement as written is false of the unchanged code at the points shown by C60_clone_violates, C60_histogram_violates (see DESIGN.md, \"Where the code disagrees with a property\"). Proved with those points excluded: C60_cps_partial, C60_internal_partial, C60_simple_partial, C60_summary_partial. Proved without restriction: C60_linkfail, C60_prometheus."
  },
  {
   "property": "C61",
   "status": "partial",
   "theorems": [
    "Verif.Memory.C61_conditions_partial",
    "Verif.Memory.C61_local_relative_violates",
    "Verif.Memory.C61_no_maximum_violates",
    "Verif.Memory.C61_zero_maximum_violates"
   ],
   "note": "The statement as written is false of the unchanged code at the points shown by C61_local_relative_violates, C61_no_maximum_violates, C61_zero_maximum_violates (see DESIGN.md, \"Where the code disagrees with a property\"). Proved with those points excluded: C61_conditions_partial."
  },
  {
   "property": "C62",
   "status": "partial",
   "theorems": [
    "Verif.Deco.Rethrow.C62_recursion_translated_violates",
    "Verif.Deco.Rethrow.C62_recursion_violates",
    "Verif.Deco.Rethrow.C62_reraise",
    "Verif.Deco.Rethrow.C62_rethrow_partial"
   ],
   "note": "The statement as written is false of the unchanged code at the points shown by C62_recursion_translated_violates, C62_recursion_violates (see DESIGN.md, \"Where the code disagrees with a property\"). Proved with those points excluded: C62_rethrow_partial. Proved without restriction: C62_reraise."
  },
  {
   "property": "C63",
   "status": "proved",
   "theorems": [
    "Verif.Exn.C63_hooks",
    "Verif.Exn.C63_threads"
   ],
   "note": ""
  },
  {
   "property": "C64",
   "status": "partial",
   "theorems": [
    "Verif.Deferred.C64_given",
    "Verif.Deferred.C64_single_partial",
    "Verif.Deferred.C64_two_setters_violates",
    "Verif.Deferred.C64_wakes"
   ],
   "note": "The statement as written is false of the unchanged code at the points shown by C64_two_setters_violates (see DESIGN.md, \"Where the code disagrees with a property\"). Proved with those points excluded: C64_single_partial. Proved without restriction: C64_given, C64_wakes."
  },
  {
   "property": "C65",
   "status": "partial",
   "theorems": [
    "Verif.LockedDataset.C65_access_partial",
    "Verif.LockedDataset.C65_access_violates",
    "Verif.LockedDataset.C65_asked_partial",
    "Verif.LockedDataset.C65_exclusive",
    "Verif.LockedDataset.C65_plain_partial",
    "Verif.LockedDataset.C65_refused_partial",
    "Verif.LockedDataset.C65_stale_arguments_violates"
   ],
   "note": "The statement as written is false of the unchanged code at the points shown by C65_access_violates, C65_stale_arguments_violates (see DESIGN.md, \"Where the code disagrees with a property\"). Proved with those points excluded: C65_access_partial, C65_asked_partial, C65_plain_partial, C65_refused_partial. Proved without restriction: C65_exclusive."
  },
  {
   "property": "C66",
   "status": "partial",
   "theorems": [
    "Verif.SyncPool.C66_hangs_violates",
    "Verif.SyncPool.C66_progress",
    "Verif.SyncPool.C66_returns_partial",
    "Verif.SyncPool.C66_synced",
    "Verif.SyncPool.C66_timeout_violates"
   ],
   "note": "The statement as written is false of the unchanged code at the points shown by C66_hangs_violates, C66_timeout_violates (see DESIGN.md, \"Where the code disagrees with a property\"). Proved with those points excluded: C66_returns_partial. Proved without restriction: C66_progress, C66_synced."
  },
  {
   "property": "C67",
   "status": "partial",
   "theorems": [
    "Verif.Terminable.C67_base_violates",
    "Verif.Terminable.C67_flagged",
    "Verif.Terminable.C67_interval",
    "Verif.Terminable.C67_interval_flagged",
    "Verif.Terminable.C67_lifecycle_partial",
    "Verif.Terminable.C67_terminates"
   ],
   "note": "The statement as written is false of the unchanged code at the points shown by C67_base_violates (see DESIGN.md, \"Where the code disagrees with a property\"). Proved with those points excluded: C67_lifecycle_partial. Proved without restriction: C67_flagged, C67_interval, C67_interval_flagged, C67_terminates."
  },
  {
   "property": "C68",
   "status": "partial",
   "theorems": [
    "Verif.SafeSleep.C68_locked_violates",
    "Verif.SafeSleep.C68_safe_sleep",
    "Verif.SafeSleep.C68_safe_wait_partial",
    "Verif.SafeSleep.C68_zero_violates"
   ],
   "note": "The statement as written is false of the unchanged code at the points shown by C68_locked_violates, C68_zero_violates (see DESIGN.md, \"Where the code disagrees with a property\"). Proved with those points excluded: C68_safe_wait_partial. Proved without restriction: C68_safe_sleep."
  },
  {
   "property": "C69",
   "status": "partial",
   "theorems": [
    "Verif.Timer.C69_executed_partial",
    "Verif.Timer.C69_pass_partial",
    "Verif.Timer.C69_same_deadline_violates",
    "Verif.Timer.C69_timers_partial"
   ],
   "note": "The statement as written is false of the unchanged code at the points shown by C69_same_deadline_violates (see DESIGN.md, \"Where the code disagrees with a property\"). Proved with those points excluded: C69_executed_partial, C69_pass_partial, C69_timers_partial."
  },
  {
   "property": "C70",
   "status": "partial",
   "theorems": [
    "Verif.Closeable.C70_closeable_partial",
    "Verif.Closeable.C70_once_partial",
    "Verif.Closeable.C70_two_threads_violates"
   ],
   "note": "The statement as written is false of the unchanged code at the points shown by C70_two_threads_violates (see DESIGN.md, \"Where the code disagrees with a property\"). Proved with those points excluded: C70_closeable_partial, C70_once_partial."
  },
  {
   "property": "C71",
   "status": "partial",
   "theorems": [
    "Verif.Context.C71_context_partial",
    "Verif.Context.C71_push_violates",
    "Verif.Context.C71_sees_unique",
    "Verif.Context.C71_with_violates"
   ],
   "note": "The statement as written is false of the unchanged code at the points shown by C71_push_violates, C71_with_violates (see DESIGN.md, \"Where the code disagrees with a property\"). Proved with those points excluded: C71_context_partial. Proved without restriction: C71_sees_unique."
  },
  {
   "property": "C72",
   "status": "partial",
   "theorems": [
    "Verif.Files.C72_absolute_violates",
    "Verif.Files.C72_double_violates",
    "Verif.Files.C72_split_partial"
   ],
   "note": "The statement as written is false of the unchanged code at the points shown by C72_absolute_violates, C72_double_violates (see DESIGN.md, \"Where the code disagrees with a property\"). Proved with those points excluded: C72_split_partial."
  },
  {
   "property": "C73",
   "status": "proved",
   "theorems": [
    "Verif.Files.C73_ends",
    "Verif.Files.C73_name",
    "Verif.Files.C73_same"
   ],
   "note": ""
  },
  {
   "property": "C74",
   "status": "partial",
   "theorems": [
    "Verif.Files.Whole.C74_files_partial",
    "Verif.Files.Whole.C74_last_written_partial",
    "Verif.Files.Whole.C74_truncated_violates",
    "Verif.Files.Whole.C74_undecodable_violates"
   ],
   "note": "The statement as written is false of the unchanged code at the points shown by C74_truncated_violates, C74_undecodable_violates (see DESIGN.md, \"Where the code disagrees with a property\"). Proved with those points excluded: C74_files_partial, C74_last_written_partial."
  },
  {
   "property": "C75",
   "status": "partial",
   "theorems": [
    "Verif.Files.Find.C75_directory_violates",
    "Verif.Files.Find.C75_entire_violates",
    "Verif.Files.Find.C75_find_partial",
    "Verif.Files.Find.C75_member_partial"
   ],
   "note": "The statement as written is false of the unchanged code at the points shown by C75_directory_violates, C75_entire_violates (see DESIGN.md, \"Where the code disagrees with a property\"). Proved with those points excluded: C75_find_partial, C75_member_partial."
  },
  {
   "property": "C76",
   "status": "partial",
   "theorems": [
    "Verif.Files.Jump.C76_nested_violates",
    "Verif.Files.Jump.C76_no_exceptions_partial",
    "Verif.Files.Jump.C76_program_partial",
    "Verif.Files.Jump.C76_restored_partial",
    "Verif.Files.Jump.C76_runs_partial"
   ],
   "note": "The statement as written is false of the unchanged code at the points shown by C76_nested_violates (see DESIGN.md, \"Where the code disagrees with a property\"). Proved with those points excluded: C76_no_exceptions_partial, C76_program_partial, C76_restored_partial, C76_runs_partial."
  },
  {
   "property": "C77",
   "status": "partial",
   "theorems": [
    "Verif.Files.Autoflush.C77_autoflush_partial",
    "Verif.Files.Autoflush.C77_construct_partial",
    "Verif.Files.Autoflush.C77_modes_violates",
    "Verif.Files.Autoflush.C77_not_held",
    "Verif.Files.Autoflush.C77_read_violates",
    "Verif.Files.Autoflush.C77_truncate_violates",
    "Verif.Files.Autoflush.C77_which_read_partial"
   ],
   "note": "The statement as written is false of the unchanged code at the points shown by C77_modes_violates, C77_read_violates, C77_truncate_violates (see DESIGN.md, \"Where the code disagrees with a property\"). Proved with those points excluded: C77_autoflush_partial, C77_construct_partial, C77_which_read_partial. Proved without restriction: C77_not_held."
  },
  {
   "property": "C78",
   "status": "partial",
   "theorems": [
    "Verif.Conc.ThreadFuture.C78_answers",
    "Verif.Conc.ThreadFuture.C78_base_violates",
    "Verif.Conc.ThreadFuture.C78_delay",
    "Verif.Conc.ThreadFuture.C78_future",
    "Verif.Conc.ThreadFuture.C78_resolved_partial"
   ],
   "note": "The statement as written is false of the unchanged code at the points shown by C78_base_violates (see DESIGN.md, \"Where the code disagrees with a property\"). Proved with those points excluded: C78_resolved_partial. Proved without restriction: C78_answers, C78_delay, C78_future."
  },
  {
   "property": "C79",
   "status": "partial",
   "theorems": [
    "Verif.Conc.Parallel.C79_all_partial",
    "Verif.Conc.Parallel.C79_base_violates",
    "Verif.Conc.Parallel.C79_construct",
    "Verif.Conc.Parallel.C79_execute"
   ],
   "note": "The statement as written is false of the unchanged code at the points shown by C79_base_violates (see DESIGN.md, \"Where the code disagrees with a property\"). Proved with those points excluded: C79_all_partial. Proved without restriction: C79_construct, C79_execute."
  },
  {
   "property": "C80",
   "status": "proved",
   "theorems": [
    "Verif.Conc.ThreadCollection.C80_join",
    "Verif.Conc.ThreadCollection.C80_join_returns",
    "Verif.Conc.ThreadCollection.C80_start",
    "Verif.Conc.ThreadCollection.C80_start_stops",
    "Verif.Conc.ThreadCollection.C80_terminate",
    "Verif.Conc.ThreadCollection.C80_would_wait"
   ],
   "note": ""
  },
  {
   "property": "C81",
   "status": "partial",
   "theorems": [
    "Verif.Args.C81_get_arguments_partial",
    "Verif.Args.C81_missing",
    "Verif.Args.C81_too_many_violates",
    "Verif.Args.C81_twice_violates",
    "Verif.Args.C81_unknown_violates",
    "Verif.Args.C81_varargs_violates"
   ],
   "note": "The statement as written is false of the unchanged code at the points shown by C81_too_many_violates, C81_twice_violates, C81_unknown_violates, C81_varargs_violates (see DESIGN.md, \"Where the code disagrees with a property\"). Proved with those points excluded: C81_get_arguments_partial. Proved without restriction: C81_missing."
  },
  {
   "property": "C82",
   "status": "partial",
   "theorems": [
    "Verif.Args.C82_call_with_arguments_partial",
    "Verif.Args.C82_errors",
    "Verif.Args.C82_gap_violates",
    "Verif.Args.C82_round_trip"
   ],
   "note": "The statement as written is false of the unchanged code at the points shown by C82_gap_violates (see DESIGN.md, \"Where the code disagrees with a property\"). Proved with those points excluded: C82_call_with_arguments_partial. Proved without restriction: C82_errors, C82_round_trip."
  },
  {
   "property": "C83",
   "status": "partial",
   "theorems": [
    "Verif.Args.C83_attach",
    "Verif.Args.C83_by_name_violates",
    "Verif.Args.C83_callable_default_violates",
    "Verif.Args.C83_for_argument_partial",
    "Verif.Args.C83_keyword_violates",
    "Verif.Args.C83_kwonly_violates",
    "Verif.Args.C83_positional_violates",
    "Verif.Args.C83_predicate_violates",
    "Verif.Args.C83_replace_partial",
    "Verif.Args.C83_transform_arguments_partial",
    "Verif.Args.C83_transform_result_partial"
   ],
   "note": "The statement as written is false of the unchanged code at the points shown by C83_by_name_violates, C83_callable_default_violates, C83_keyword_violates, C83_kwonly_violates, C83_positional_violates, C83_predicate_violates (see DESIGN.md, \"Where the code disagrees with a property\"). Proved with those points excluded: C83_for_argument_partial, C83_replace_partial, C83_transform_arguments_partial, C83_transform_result_partial. Proved without restriction: C83_attach."
  },
  {
   "property": "C84",
   "status": "partial",
   "theorems": [
    "Verif.Precondition.C84_by_name_violates",
    "Verif.Precondition.C84_by_place_violates",
    "Verif.Precondition.C84_falsy_violates",
    "Verif.Precondition.C84_names",
    "Verif.Precondition.C84_outcomes_partial",
    "Verif.Precondition.C84_postcondition_partial",
    "Verif.Precondition.C84_postcondition_raises",
    "Verif.Precondition.C84_postcondition_violates",
    "Verif.Precondition.C84_precondition_partial"
   ],
   "note": "The statement as written is false of the unchanged code at the points shown by C84_by_name_violates, C84_by_place_violates, C84_falsy_violates, C84_postcondition_violates (see DESIGN.md, \"Where the code disagrees with a property\"). Proved with those points excluded: C84_outcomes_partial, C84_postcondition_partial, C84_precondition_partial. Proved without restriction: C84_names, C84_postcondition_raises."
  },
  {
   "property": "C85",
   "status": "partial",
   "theorems": [
    "Verif.Flow.C85_empty_partial",
    "Verif.Flow.C85_empty_violates",
    "Verif.Flow.C85_items",
    "Verif.Flow.C85_loop_raises",
    "Verif.Flow.C85_loop_while",
    "Verif.Flow.C85_results"
   ],
   "note": "The statement as written is false of the unchanged code at the points shown by C85_empty_violates (see DESIGN.md, \"Where the code disagrees with a property\"). Proved with those points excluded: C85_empty_partial. Proved without restriction: C85_items, C85_loop_raises, C85_loop_while, C85_results."
  },
  {
   "property": "C86",
   "status": "partial",
   "theorems": [
    "Verif.CachedProperty.C86_cached_property_partial",
    "Verif.CachedProperty.C86_not_loaded_violates",
    "Verif.CachedProperty.C86_once_partial",
    "Verif.CachedProperty.C86_two_threads_violates"
   ],
   "note": "The statement as written is false of the unchanged code at the points shown by C86_not_loaded_violates, C86_two_threads_violates (see DESIGN.md, \"Where the code disagrees with a property\"). Proved with those points excluded: C86_cached_property_partial, C86_once_partial."
  },
  {
   "property": "C87",
   "status": "partial",
   "theorems": [
    "Verif.CachedProperty.C87_chain_partial",
    "Verif.CachedProperty.C87_documented",
    "Verif.CachedProperty.C87_pair_violates"
   ],
   "note": "The statement as written is false of the unchanged code at the points shown by C87_pair_violates (see DESIGN.md, \"Where the code disagrees with a property\"). Proved with those points excluded: C87_chain_partial. Proved without restriction: C87_documented."
  },
  {
   "property": "C88",
   "status": "partial",
   "theorems": [
    "Verif.Schema.C88_caster_violates",
    "Verif.Schema.C88_deterministic",
    "Verif.Schema.C88_exceptions_partial",
    "Verif.Schema.C88_many_partial",
    "Verif.Schema.C88_no_list_partial",
    "Verif.Schema.C88_schema_partial",
    "Verif.Schema.C88_second_time_violates",
    "Verif.Schema.C88_single_call_violates",
    "Verif.Schema.C88_union_violates"
   ],
   "note": "The statement as written is false of the unchanged code at the points shown by C88_caster_violates, C88_second_time_violates, C88_single_call_violates, C88_union_violates (see DESIGN.md, \"Where the code disagrees with a property\"). Proved with those points excluded: C88_exceptions_partial, C88_many_partial, C88_no_list_partial, C88_schema_partial. Proved without restriction: C88_deterministic."
  },
  {
   "property": "C89",
   "status": "partial",
   "theorems": [
    "Verif.SchemaRegexp.C89_accepts_iff_beginning",
    "Verif.SchemaRegexp.C89_attribute_error_violates",
    "Verif.SchemaRegexp.C89_ipv4_form",
    "Verif.SchemaRegexp.C89_ipv4_garbage_violates",
    "Verif.SchemaRegexp.C89_ipv4_numbers_violates",
    "Verif.SchemaRegexp.C89_ipv4_unchanged",
    "Verif.SchemaRegexp.C89_regexp_partial",
    "Verif.SchemaRegexp.C89_returns_a_match"
   ],
   "note": "The statement as written is false of the unchanged code at the points shown by C89_attribute_error_violates, C89_ipv4_garbage_violates, C89_ipv4_numbers_violates (see DESIGN.md, \"Where the code disagrees with a property\"). Proved with those points excluded: C89_regexp_partial. Proved without restriction: C89_accepts_iff_beginning, C89_ipv4_form, C89_ipv4_unchanged, C89_returns_a_match."
  },
  {
   "property": "C90",
   "status": "partial",
   "theorems": [
    "Verif.Schema.C90_call_partial",
    "Verif.Schema.C90_default_partial",
    "Verif.Schema.C90_empty_violates",
    "Verif.Schema.C90_from_dict_partial",
    "Verif.Schema.C90_list_of_unknown_violates",
    "Verif.Schema.C90_nested_type_violates",
    "Verif.Schema.C90_optional_partial",
    "Verif.Schema.C90_type_violates",
    "Verif.Schema.C90_unknown_violates"
   ],
   "note": "The statement as written is false of the unchanged code at the points shown by C90_empty_violates, C90_list_of_unknown_violates, C90_nested_type_violates, C90_type_violates, C90_unknown_violates (see DESIGN.md, \"Where the code disagrees with a property\"). Proved with those points excluded: C90_call_partial, C90_default_partial, C90_from_dict_partial, C90_optional_partial."
  },
  {
   "property": "C91",
   "status": "proved",
   "theorems": [
    "Verif.Pred.C91_has",
    "Verif.Pred.C91_has_keys",
    "Verif.Pred.C91_is_predicate",
    "Verif.Pred.C91_predicate_value"
   ],
   "note": ""
  },
  {
   "property": "C92",
   "status": "partial",
   "theorems": [
    "Verif.Pred.C92_inside_partial",
    "Verif.Pred.C92_inside_violates"
   ],
   "note": "The statement as written is false of the unchanged code at the points shown by C92_inside_violates (see DESIGN.md, \"Where the code disagrees with a property\"). Proved with those points excluded: C92_inside_partial."
  },
  {
   "property": "C93",
   "status": "partial",
   "theorems": [
    "Verif.PredBuild.C93_build_partial",
    "Verif.PredBuild.C93_dict_violates",
    "Verif.PredBuild.C93_other_violates"
   ],
   "note": "The statement as written is false of the unchanged code at the points shown by C93_dict_violates, C93_other_violates (see DESIGN.md, \"Where the code disagrees with a property\"). Proved with those points excluded: C93_build_partial."
  },
  {
   "property": "C94",
   "status": "partial",
   "theorems": [
    "Verif.Overload.C94_arity_violates",
    "Verif.Overload.C94_executes_matching",
    "Verif.Overload.C94_first_registered_violates",
    "Verif.Overload.C94_most_specific_violates",
    "Verif.Overload.C94_no_annotation_violates",
    "Verif.Overload.C94_overload_partial",
    "Verif.Overload.C94_register"
   ],
   "note": "The statement as written is false of the unchanged code at the points shown by C94_arity_violates, C94_first_registered_violates, C94_most_specific_violates, C94_no_annotation_violates (see DESIGN.md, \"Where the code disagrees with a property\"). Proved with those points excluded: C94_overload_partial. Proved without restriction: C94_executes_matching, C94_register."
  },
  {
   "property": "C95",
   "status": "proved",
   "theorems": [
    "Verif.Transforms.C95_clip",
    "Verif.Transforms.C95_hashables",
    "Verif.Transforms.C95_indices",
    "Verif.Transforms.C95_is_subset",
    "Verif.Transforms.C95_pad",
    "Verif.Transforms.C95_split_shuffle",
    "Verif.Transforms.C95_unpack"
   ],
   "note": ""
  },
  {
   "property": "C96",
   "status": "proved",
   "theorems": [
    "Verif.Interpolate.C96_at_entries",
    "Verif.Interpolate.C96_between",
    "Verif.Interpolate.C96_outside",
    "Verif.Interpolate.C96_percentile",
    "Verif.Interpolate.C96_percentile_sorted"
   ],
   "note": ""
  },
  {
   "property": "C97",
   "status": "proved",
   "theorems": [
    "Verif.DirtyDict.C97_dirty_dict"
   ],
   "note": ""
  },
  {
   "property": "C98",
   "status": "proved",
   "theorems": [
    "Verif.TwoWay.C98_init",
    "Verif.TwoWay.C98_two_way"
   ],
   "note": ""
  },
  {
   "property": "C99",
   "status": "partial",
   "theorems": [
    "Verif.TwoWay.C99_done_violates"
   ],
   "note": "The statement as written is false of the unchanged code at the points shown by C99_done_violates (see DESIGN.md, \"Where the code disagrees with a property\")."
  },
  {
   "property": "C100",
   "status": "proved",
   "theorems": [
    "Verif.DictView.C100_read_after_write",
    "Verif.DictView.C100_view"
   ],
   "note": ""
  },
  {
   "property": "C101",
   "status": "partial",
   "theorems": [
    "Verif.DictView.C101_copy_partial",
    "Verif.DictView.C101_copy_violates"
   ],
   "note": "The statement as written is false of the unchanged code at the points shown by C101_copy_violates (see DESIGN.md, \"Where the code disagrees with a property\"). Proved with those points excluded: C101_copy_partial."
  },
  {
   "property": "C102",
   "status": "partial",
   "theorems": [
    "Verif.KeyAware.C102_default_dict_partial",
    "Verif.KeyAware.C102_lookups_violates",
    "Verif.KeyAware.C102_refused_partial"
   ],
   "note": "The statement as written is false of the unchanged code at the points shown by C102_lookups_violates (see DESIGN.md, \"Where the code disagrees with a property\"). Proved with those points excluded: C102_default_dict_partial, C102_refused_partial."
  },
  {
   "property": "C103",
   "status": "proved",
   "theorems": [
    "Verif.ThreadPool.C103_broken",
    "Verif.ThreadPool.C103_completes",
    "Verif.ThreadPool.C103_metrics",
    "Verif.ThreadPool.C103_once",
    "Verif.ThreadPool.C103_order",
    "Verif.ThreadPool.C103_threads"
   ],
   "note": ""
  },
  {
   "property": "C104",
   "status": "partial",
   "theorems": [
    "Verif.ThreadPool.C104_begun_partial",
    "Verif.ThreadPool.C104_dropped_violates",
    "Verif.ThreadPool.C104_lost_violates"
   ],
   "note": "The statement as written is false of the unchanged code at the points shown by C104_dropped_violates, C104_lost_violates (see DESIGN.md, \"Where the code disagrees with a property\"). Proved with those points excluded: C104_begun_partial."
  },
  {
   "property": "C105",
   "status": "partial",
   "theorems": [
    "Verif.ThreadPool.C105_shutdown_partial",
    "Verif.ThreadPool.C105_shutdown_violates"
   ],
   "note": "The statement as written is false of the unchanged code at the points shown by C105_shutdown_violates (see DESIGN.md, \"Where the code disagrees with a property\"). Proved with those points excluded: C105_shutdown_partial."
  },
  {
   "property": "C106",
   "status": "proved",
   "theorems": [
    "Verif.MetricTree.C106_get_metric",
    "Verif.MetricTree.C106_name"
   ],
   "note": ""
  },
  {
   "property": "C107",
   "status": "partial",
   "theorems": [
    "Verif.MetricTree.C107_leaf_violates",
    "Verif.MetricTree.C107_reset_root_partial",
    "Verif.MetricTree.C107_reset_violates",
    "Verif.MetricTree.C107_root_violates",
    "Verif.MetricTree.C107_unknown_type_partial"
   ],
   "note": "The statement as written is false of the unchanged code at the points shown by C107_leaf_violates, C107_reset_violates, C107_root_violates (see DESIGN.md, \"Where the code disagrees with a property\"). Proved with those points excluded: C107_reset_root_partial, C107_unknown_type_partial."
  },
  {
   "property": "C108",
   "status": "proved",
   "theorems": [
    "Verif.Mixins.C108_by",
    "Verif.Mixins.C108_by_int",
    "Verif.Mixins.C108_by_str",
    "Verif.Mixins.C108_frozendict",
    "Verif.Mixins.C108_frozendict_equal",
    "Verif.Mixins.C108_omni_equal",
    "Verif.Mixins.C108_omni_equivalence",
    "Verif.Mixins.C108_omni_hash",
    "Verif.Mixins.C108_wrapper"
   ],
   "note": ""
  },
  {
   "property": "C109",
   "status": "partial",
   "theorems": [
    "Verif.Mixins.C109_int_partial",
    "Verif.Mixins.C109_mixed_violates",
    "Verif.Mixins.C109_str_partial"
   ],
   "note": "The statement as written is false of the unchanged code at the points shown by C109_mixed_violates (see DESIGN.md, \"Where the code disagrees with a property\"). Proved with those points excluded: C109_int_partial, C109_str_partial."
  },
  {
   "property": "C110",
   "status": "proved",
   "theorems": [
    "Verif.Immutable.C110_constructor",
    "Verif.Immutable.C110_immutable"
   ],
   "note": ""
  },
  {
   "property": "C111",
   "status": "partial",
   "theorems": [
    "Verif.Immutable.C111_frozendict_partial",
    "Verif.Immutable.C111_frozendict_violates"
   ],
   "note": "The statement as written is false of the unchanged code at the points shown by C111_frozendict_violates (see DESIGN.md, \"Where the code disagrees with a property\"). Proved with those points excluded: C111_frozendict_partial."
  },
  {
   "property": "C112",
   "status": "proved",
   "theorems": [
    "Verif.Enums.C112_equal",
    "Verif.Enums.C112_equivalence"
   ],
   "note": ""
  },
  {
   "property": "C113",
   "status": "partial",
   "theorems": [
    "Verif.Enums.C113_equal_raises_violates",
    "Verif.Enums.C113_int_enum_partial",
    "Verif.Enums.C113_unhashable_violates"
   ],
   "note": "The statement as written is false of the unchanged code at the points shown by C113_equal_raises_violates, C113_unhashable_violates (see DESIGN.md, \"Where the code disagrees with a property\"). Proved with those points excluded: C113_int_enum_partial."
  },
  {
   "property": "C114",
   "status": "partial",
   "theorems": [
    "Verif.Enums.C114_eqable_partial",
    "Verif.Enums.C114_more_attributes_violates"
   ],
   "note": "The statement as written is false of the unchanged code at the points shown by C114_more_attributes_violates (see DESIGN.md, \"Where the code disagrees with a property\"). Proved with those points excluded: C114_eqable_partial."
  },
  {
   "property": "C115",
   "status": "proved",
   "theorems": [
    "Verif.Proxy.C115_comparisons",
    "Verif.Proxy.C115_in_place",
    "Verif.Proxy.C115_in_place_nested",
    "Verif.Proxy.C115_operators",
    "Verif.Proxy.C115_shed",
    "Verif.Proxy.C115_unary"
   ],
   "note": ""
  },
  {
   "property": "C116",
   "status": "partial",
   "theorems": [
    "Verif.Proxy.C116_and_or_violates",
    "Verif.Proxy.C116_divmod_partial",
    "Verif.Proxy.C116_mod_violates",
    "Verif.Proxy.C116_reflected_partial",
    "Verif.Proxy.C116_second_violates",
    "Verif.Proxy.C116_wraps_partial"
   ],
   "note": "The statement as written is false of the unchanged code at the points shown by C116_and_or_violates, C116_mod_violates, C116_second_violates (see DESIGN.md, \"Where the code disagrees with a property\"). Proved with those points excluded: C116_divmod_partial, C116_reflected_partial, C116_wraps_partial."
  },
  {
   "property": "C117",
   "status": "proved",
   "theorems": [
    "Verif.Singleton.C117_single",
    "Verif.Singleton.C117_singleton"
   ],
   "note": ""
  },
  {
   "property": "C118",
   "status": "partial",
   "theorems": [
    "Verif.Singleton.C118_at_most_once_partial",
    "Verif.Singleton.C118_keywords_violates",
    "Verif.Singleton.C118_raises_violates",
    "Verif.Singleton.C118_single_raises_violates"
   ],
   "note": "The statement as written is false of the unchanged code at the points shown by C118_keywords_violates, C118_raises_violates, C118_single_raises_violates (see DESIGN.md, \"Where the code disagrees with a property\"). Proved with those points excluded: C118_at_most_once_partial."
  },
  {
   "property": "C119",
   "status": "proved",
   "theorems": [
    "Verif.MetricTree.C119_handle",
    "Verif.MetricTree.C119_level"
   ],
   "note": ""
  },
  {
   "property": "C120",
   "status": "proved",
   "theorems": [
    "Verif.MetricTree.C120_levels",
    "Verif.MetricTree.C120_reported"
   ],
   "note": ""
  },
  {
   "property": "C121",
   "status": "proved",
   "theorems": [
    "Verif.Cache.C121_counts",
    "Verif.Cache.C121_hits",
    "Verif.Cache.C121_miss_asks",
    "Verif.Cache.C121_same_cache"
   ],
   "note": ""
  },
  {
   "property": "C122",
   "status": "partial",
   "theorems": [
    "Verif.Cache.C122_evictions_partial",
    "Verif.Cache.C122_evictions_violates",
    "Verif.Cache.C122_failures_miss_violates",
    "Verif.Cache.C122_failures_violates",
    "Verif.Writeback.C122_entries_waiting_violates",
    "Verif.Writeback.C122_writeback_partial",
    "Verif.Writeback.C122_writeback_violates"
   ],
   "note": "The statement as written is false of the unchanged code at the points shown by C122_evictions_violates, C122_failures_miss_violates, C122_failures_violates, C122_entries_waiting_violates, C122_writeback_violates (see DESIGN.md, \"Where the code disagrees with a property\"). Proved with those points excluded: C122_evictions_partial, C122_writeback_partial."
  },
  {
   "property": "C123",
   "status": "proved",
   "theorems": [
    "Verif.Measure.C123_context",
    "Verif.Measure.C123_decorator",
    "Verif.Measure.C123_future",
    "Verif.Measure.C123_generator_never",
    "Verif.Measure.C123_generator_once",
    "Verif.Measure.C123_generator_same"
   ],
   "note": ""
  },
  {
   "property": "C124",
   "status": "partial",
   "theorems": [
    "Verif.Measure.C124_base_exception_violates",
    "Verif.Measure.C124_context_overlap_violates",
    "Verif.Measure.C124_future_twice_violates",
    "Verif.Measure.C124_generator_value_violates",
    "Verif.Measure.C124_measure_partial"
   ],
   "note": "The statement as written is false of the unchanged code at the points shown by C124_base_exception_violates, C124_context_overlap_violates, C124_future_twice_violates, C124_generator_value_violates (see DESIGN.md, \"Where the code disagrees with a property\"). Proved with those points excluded: C124_measure_partial."
  },
  {
   "property": "C125",
   "status": "proved",
   "theorems": [
    "Verif.Prometheus.C125_export_read_back"
   ],
   "note": ""
  },
  {
   "property": "C126",
   "status": "partial",
   "theorems": [
    "Verif.Prometheus.C126_injective_partial",
    "Verif.Prometheus.C126_names_violates",
    "Verif.Prometheus.C126_newline_violates"
   ],
   "note": "The statement as written is false of the unchanged code at the points shown by C126_names_violates, C126_newline_violates (see DESIGN.md, \"Where the code disagrees with a property\"). Proved with those points excluded: C126_injective_partial."
  },
  {
   "property": "C127",
   "status": "proved",
   "theorems": [
    "Verif.DeepCompare.C127_assert_equal",
    "Verif.DeepCompare.C127_equal_passes",
    "Verif.DeepCompare.C127_set_of_other_kind"
   ],
   "note": ""
  },
  {
   "property": "C128",
   "status": "partial",
   "theorems": [
    "Verif.DeepCompare.C128_dict_list_violates",
    "Verif.DeepCompare.C128_dict_set_violates",
    "Verif.DeepCompare.C128_dictionary_partial",
    "Verif.DeepCompare.C128_kinds_violates",
    "Verif.DeepCompare.C128_list_set_violates",
    "Verif.DeepCompare.C128_raising_equality_violates",
    "Verif.DeepCompare.C128_symmetry_partial",
    "Verif.DeepCompare.C128_symmetry_violates",
    "Verif.DeepCompare.C128_type_error_violates"
   ],
   "note": "The statement as written is false of the unchanged code at the points shown by C128_dict_list_violates, C128_dict_set_violates, C128_kinds_violates, C128_list_set_violates, C128_raising_equality_violates, C128_symmetry_violates, C128_type_error_violates (see DESIGN.md, \"Where the code disagrees with a property\"). Proved with those points excluded: C128_dictionary_partial, C128_symmetry_partial."
  },
  {
   "property": "C129",
   "status": "proved",
   "theorems": [
    "Verif.Jsonify.C129_json_unchanged",
    "Verif.Jsonify.C129_jsonify"
   ],
   "note": ""
  },
  {
   "property": "C130",
   "status": "partial",
   "theorems": [
    "Verif.Jsonify.C130_entries_violates",
    "Verif.Jsonify.C130_enum_violates",
    "Verif.Jsonify.C130_result_is_json_partial",
    "Verif.Jsonify.C130_tuple_key_violates"
   ],
   "note": "The statement as written is false of the unchanged code at the points shown by C130_entries_violates, C130_enum_violates, C130_tuple_key_violates (see DESIGN.md, \"Where the code disagrees with a property\"). Proved with those points excluded: C130_result_is_json_partial."
  },
  {
   "property": "C131",
   "status": "proved",
   "theorems": [
    "Verif.Jsonify.C131_idempotent",
    "Verif.Jsonify.C131_stringify",
    "Verif.Jsonify.C131_strings"
   ],
   "note": ""
  },
  {
   "property": "C132",
   "status": "partial",
   "theorems": [
    "Verif.Jsonify.C132_atom_partial",
    "Verif.Jsonify.C132_entries_violates",
    "Verif.Jsonify.C132_enum_violates",
    "Verif.Jsonify.C132_flat_partial",
    "Verif.Jsonify.C132_none_violates",
    "Verif.Jsonify.C132_tuple_key_violates"
   ],
   "note": "The statement as written is false of the unchanged code at the points shown by C132_entries_violates, C132_enum_violates, C132_none_violates, C132_tuple_key_violates (see DESIGN.md, \"Where the code disagrees with a property\"). Proved with those points excluded: C132_atom_partial, C132_flat_partial."
  },
  {
   "property": "C133",
   "status": "proved",
   "theorems": [
    "Verif.Tuples.C133_raises",
    "Verif.Tuples.C133_setzip",
    "Verif.Tuples.C133_typednamedtuple",
    "Verif.Tuples.C133_vector_inverse",
    "Verif.Tuples.C133_vector_scalar",
    "Verif.Tuples.C133_vector_sum"
   ],
   "note": ""
  },
  {
   "property": "C134",
   "status": "partial",
   "theorems": [
    "Verif.Tuples.C134_excess_violates",
    "Verif.Tuples.C134_setzip_partial",
    "Verif.Tuples.C134_setzip_violates",
    "Verif.Tuples.C134_vector_length_violates"
   ],
   "note": "The statement as written is false of the unchanged code at the points shown by C134_excess_violates, C134_setzip_violates, C134_vector_length_violates (see DESIGN.md, \"Where the code disagrees with a property\"). Proved with those points excluded: C134_setzip_partial."
  },
  {
   "property": "C135",
   "status": "proved",
   "theorems": [
    "Verif.Tainting.C135_equality",
    "Verif.Tainting.C135_iteration",
    "Verif.Tainting.C135_no_spurious_taint",
    "Verif.Tainting.C135_order",
    "Verif.Tainting.C135_propagates",
    "Verif.Tainting.C135_repeats",
    "Verif.Tainting.C135_same_values"
   ],
   "note": ""
  },
  {
   "property": "C136",
   "status": "partial",
   "theorems": [
    "Verif.Tainting.C136_index_violates",
    "Verif.Tainting.C136_ne_violates",
    "Verif.Tainting.C136_reflected_violates",
    "Verif.Tainting.C136_sums_partial"
   ],
   "note": "The statement as written is false of the unchanged code at the points shown by C136_index_violates, C136_ne_violates, C136_reflected_violates (see DESIGN.md, \"Where the code disagrees with a property\"). Proved with those points excluded: C136_sums_partial."
  },
  {
   "property": "C137",
   "status": "proved",
   "theorems": [
    "Verif.Traceback.C137_bottom",
    "Verif.Traceback.C137_equal",
    "Verif.Traceback.C137_frames",
    "Verif.Traceback.C137_json",
    "Verif.Traceback.C137_load",
    "Verif.Traceback.C137_load_fails",
    "Verif.Traceback.C137_repr",
    "Verif.Traceback.C137_unpickling"
   ],
   "note": ""
  },
  {
   "property": "C138",
   "status": "partial",
   "theorems": [
    "Verif.Traceback.C138_environment_violates",
    "Verif.Traceback.C138_json_partial",
    "Verif.Traceback.C138_json_violates",
    "Verif.Traceback.C138_repr_violates"
   ],
   "note": "The statement as written is false of the unchanged code at the points shown by C138_environment_violates, C138_json_violates, C138_repr_violates (see DESIGN.md, \"Where the code disagrees with a property\"). Proved with those points excluded: C138_json_partial."
  },
  {
   "property": "C139",
   "status": "proved",
   "theorems": [
    "Verif.CpuSleep.C139_after",
    "Verif.CpuSleep.C139_negative",
    "Verif.CpuSleep.C139_plain",
    "Verif.CpuSleep.C139_sleep",
    "Verif.CpuSleep.C139_thread"
   ],
   "note": ""
  },
  {
   "property": "C140",
   "status": "partial",
   "theorems": [
    "Verif.CpuSleep.C140_check_each_violates",
    "Verif.CpuSleep.C140_sooner_partial",
    "Verif.CpuSleep.C140_time_string_violates",
    "Verif.CpuSleep.C140_zero_sooner_violates"
   ],
   "note": "The statement as written is false of the unchanged code at the points shown by C140_check_each_violates, C140_time_string_violates, C140_zero_sooner_violates (see DESIGN.md, \"Where the code disagrees with a property\"). Proved with those points excluded: C140_sooner_partial."
  },
  {
   "property": "C141",
   "status": "proved",
   "theorems": [
    "Verif.CpuStats.C141_occupancy",
    "Verif.CpuStats.C141_own_usage",
    "Verif.CpuStats.C141_own_usage_again",
    "Verif.CpuStats.C141_percentile",
    "Verif.CpuStats.C141_range",
    "Verif.CpuStats.C141_returns",
    "Verif.CpuStats.C141_window"
   ],
   "note": ""
  },
  {
   "property": "C142",
   "status": "partial",
   "theorems": [
    "Verif.CpuStats.C142_guest_violates",
    "Verif.CpuStats.C142_kinds_partial",
    "Verif.CpuStats.C142_percentile_partial",
    "Verif.CpuStats.C142_request_violates",
    "Verif.CpuStats.C142_schedule_partial",
    "Verif.CpuStats.C142_threads_violates"
   ],
   "note": "The statement as written is false of the unchanged code at the points shown by C142_guest_violates, C142_request_violates, C142_threads_violates (see DESIGN.md, \"Where the code disagrees with a property\"). Proved with those points excluded: C142_kinds_partial, C142_percentile_partial, C142_schedule_partial."
  },
  {
   "property": "C143",
   "status": "proved",
   "theorems": [
    "Verif.Helpers.C143_count",
    "Verif.Helpers.C143_count_start_at",
    "Verif.Helpers.C143_enumerate2",
    "Verif.Helpers.C143_f_range",
    "Verif.Helpers.C143_f_range_defaults",
    "Verif.Helpers.C143_filter",
    "Verif.Helpers.C143_index_of",
    "Verif.Helpers.C143_index_of_max",
    "Verif.Helpers.C143_is_empty",
    "Verif.Helpers.C143_iter_dict_of_list",
    "Verif.Helpers.C143_iterate_callable",
    "Verif.Helpers.C143_multirun",
    "Verif.Helpers.C143_rows",
    "Verif.Helpers.C143_smart_zip",
    "Verif.Helpers.C143_unpack_dict",
    "Verif.Helpers.C143_unpack_dict_raises"
   ],
   "note": ""
  },
  {
   "property": "C144",
   "status": "partial",
   "theorems": [
    "Verif.Helpers.C144_count_violates",
    "Verif.Helpers.C144_f_range_violates",
    "Verif.Helpers.C144_multirun_violates",
    "Verif.Helpers.C144_unpack_dict_violates",
    "Verif.Helpers.C144_zip_shifted_partial",
    "Verif.Helpers.C144_zip_shifted_violates"
   ],
   "note": "The statement as written is false of the unchanged code at the points shown by C144_count_violates, C144_f_range_violates, C144_multirun_violates, C144_unpack_dict_violates, C144_zip_shifted_violates (see DESIGN.md, \"Where the code disagrees with a property\"). Proved with those points excluded: C144_zip_shifted_partial."
  },
  {
   "property": "C145",
   "status": "proved",
   "theorems": [
    "Verif.LogExceptions.C145_catch",
    "Verif.LogExceptions.C145_logged",
    "Verif.LogExceptions.C145_raises",
    "Verif.LogExceptions.C145_reraise",
    "Verif.LogExceptions.C145_untouched"
   ],
   "note": ""
  },
  {
   "property": "C146",
   "status": "partial",
   "theorems": [
    "Verif.LogExceptions.C146_base_violates",
    "Verif.LogExceptions.C146_catch_violates",
    "Verif.LogExceptions.C146_doc_example_violates",
    "Verif.LogExceptions.C146_exc_types_violates",
    "Verif.LogExceptions.C146_index_violates",
    "Verif.LogExceptions.C146_replaced_partial"
   ],
   "note": "The statement as written is false of the unchanged code at the points shown by C146_base_violates, C146_catch_violates, C146_doc_example_violates, C146_exc_types_violates, C146_index_violates (see DESIGN.md, \"Where the code disagrees with a property\"). Proved with those points excluded: C146_replaced_partial."
  },
  {
   "property": "C147",
   "status": "proved",
   "theorems": [
    "Verif.Coded.C147_base",
    "Verif.Coded.C147_is_instance"
   ],
   "note": ""
  },
  {
   "property": "C148",
   "status": "partial",
   "theorems": [
    "Verif.Coded.C148_doc_example_violates",
    "Verif.Coded.C148_mixin_violates",
    "Verif.Coded.C148_repr_violates",
    "Verif.Coded.C148_several_bases_violates",
    "Verif.Coded.C148_sound_partial",
    "Verif.Coded.C148_str_violates",
    "Verif.Coded.C148_texts_partial"
   ],
   "note": "The statement as written is false of the unchanged code at the points shown by C148_doc_example_violates, C148_mixin_violates, C148_repr_violates, C148_several_bases_violates, C148_str_violates (see DESIGN.md, \"Where the code disagrees with a property\"). Proved with those points excluded: C148_sound_partial, C148_texts_partial."
  },
  {
   "property": "C149",
   "status": "proved",
   "theorems": [
    "Verif.JsonEncode.C149_encode",
    "Verif.JsonEncode.C149_files",
    "Verif.JsonEncode.C149_keys",
    "Verif.JsonEncode.C149_total"
   ],
   "note": ""
  },
  {
   "property": "C150",
   "status": "partial",
   "theorems": [
    "Verif.JsonEncode.C150_file_violates",
    "Verif.JsonEncode.C150_keys_in_objects_violates",
    "Verif.JsonEncode.C150_keys_violates",
    "Verif.JsonEncode.C150_partial",
    "Verif.JsonEncode.C150_slot_partial",
    "Verif.JsonEncode.C150_slots_violates",
    "Verif.JsonEncode.C150_within_violates"
   ],
   "note": "The statement as written is false of the unchanged code at the points shown by C150_file_violates, C150_keys_in_objects_violates, C150_keys_violates, C150_slots_violates, C150_within_violates (see DESIGN.md, \"Where the code disagrees with a property\"). Proved with those points excluded: C150_partial, C150_slot_partial."
  },
  {
   "property": "C151",
   "status": "proved",
   "theorems": [
    "Verif.Closing.C151_chain",
    "Verif.Closing.C151_close",
    "Verif.Closing.C151_close_raises",
    "Verif.Closing.C151_hint",
    "Verif.Closing.C151_next"
   ],
   "note": ""
  },
  {
   "property": "C152",
   "status": "partial",
   "theorems": [
    "Verif.Closing.C152_chain_partial",
    "Verif.Closing.C152_chain_violates",
    "Verif.Closing.C152_hint_partial",
    "Verif.Closing.C152_hint_violates",
    "Verif.Closing.C152_send_violates",
    "Verif.Closing.C152_type_error_violates"
   ],
   "note": "The statement as written is false of the unchanged code at the points shown by C152_chain_violates, C152_hint_violates, C152_send_violates, C152_type_error_violates (see DESIGN.md, \"Where the code disagrees with a property\"). Proved with those points excluded: C152_chain_partial, C152_hint_partial."
  },
  {
   "property": "C153",
   "status": "proved",
   "theorems": [
    "Verif.Stdout.C153_ends",
    "Verif.Stdout.C153_result"
   ],
   "note": ""
  },
  {
   "property": "C154",
   "status": "partial",
   "theorems": [
    "Verif.Stdout.C154_deadlock_violates",
    "Verif.Stdout.C154_encoding_partial",
    "Verif.Stdout.C154_encoding_violates",
    "Verif.Stdout.C154_ends_partial"
   ],
   "note": "The statement as written is false of the unchanged code at the points shown by C154_deadlock_violates, C154_encoding_violates (see DESIGN.md, \"Where the code disagrees with a property\"). Proved with those points excluded: C154_encoding_partial, C154_ends_partial."
  },
  {
   "property": "C155",
   "status": "proved",
   "theorems": [
    "Verif.DictObject.C155_apply",
    "Verif.DictObject.C155_apply_plain",
    "Verif.DictObject.C155_attributes",
    "Verif.DictObject.C155_construct"
   ],
   "note": ""
  },
  {
   "property": "C156",
   "status": "partial",
   "theorems": [
    "Verif.DictObject.C156_copy_violates",
    "Verif.DictObject.C156_every_dict_partial",
    "Verif.DictObject.C156_every_dict_violates",
    "Verif.DictObject.C156_names_partial",
    "Verif.DictObject.C156_names_violates"
   ],
   "note": "The statement as written is false of the unchanged code at the points shown by C156_copy_violates, C156_every_dict_violates, C156_names_violates (see DESIGN.md, \"Where the code disagrees with a property\"). Proved with those points excluded: C156_every_dict_partial, C156_names_partial."
  },
  {
   "property": "C157",
   "status": "proved",
   "theorems": [
    "Verif.DataObject.C157_eq",
    "Verif.DataObject.C157_hash",
    "Verif.DataObject.C157_init",
    "Verif.DataObject.C157_round_trip",
    "Verif.DataObject.C157_to_json"
   ],
   "note": ""
  },
  {
   "property": "C158",
   "status": "partial",
   "theorems": [
    "Verif.DataObject.C158_inherited_violates",
    "Verif.DataObject.C158_names_violates",
    "Verif.DataObject.C158_other_partial",
    "Verif.DataObject.C158_other_violates",
    "Verif.DataObject.C158_symmetry_violates"
   ],
   "note": "The statement as written is false of the unchanged code at the points shown by C158_inherited_violates, C158_names_violates, C158_other_violates, C158_symmetry_violates (see DESIGN.md, \"Where the code disagrees with a property\"). Proved with those points excluded: C158_other_partial."
  },
  {
   "property": "C159",
   "status": "proved",
   "theorems": [
    "Verif.Imports.C159_class",
    "Verif.Imports.C159_fails",
    "Verif.Imports.C159_last",
    "Verif.Imports.C159_names"
   ],
   "note": ""
  },
  {
   "property": "C160",
   "status": "partial",
   "theorems": [
    "Verif.Imports.C160_no_all_violates",
    "Verif.Imports.C160_top_level_violates",
    "Verif.Imports.C160_underscore_violates",
    "Verif.Imports.C160_walk_partial"
   ],
   "note": "The statement as written is false of the unchanged code at the points shown by C160_no_all_violates, C160_top_level_violates, C160_underscore_violates (see DESIGN.md, \"Where the code disagrees with a property\"). Proved with those points excluded: C160_walk_partial."
  },
  {
   "property": "C161",
   "status": "proved",
   "theorems": [
    "Verif.Signals.C161_aborts",
    "Verif.Signals.C161_at_least",
    "Verif.Signals.C161_ends",
    "Verif.Signals.C161_negative",
    "Verif.Signals.C161_returns_False"
   ],
   "note": ""
  },
  {
   "property": "C162",
   "status": "partial",
   "theorems": [
    "Verif.Signals.C162_interrupt_violates",
    "Verif.Signals.C162_no_exceptions_partial",
    "Verif.Signals.C162_race_violates"
   ],
   "note": "The statement as written is false of the unchanged code at the points shown by C162_interrupt_violates, C162_race_violates (see DESIGN.md, \"Where the code disagrees with a property\"). Proved with those points excluded: C162_no_exceptions_partial."
  },
  {
   "property": "C163",
   "status": "proved",
   "theorems": [
    "Verif.Signals.C163_clean",
    "Verif.Signals.C163_only_then",
    "Verif.Signals.C163_released",
    "Verif.Signals.C163_restored"
   ],
   "note": ""
  },
  {
   "property": "C164",
   "status": "partial",
   "theorems": [
    "Verif.Signals.C164_exception_violates",
    "Verif.Signals.C164_sigint_partial",
    "Verif.Signals.C164_sigint_violates",
    "Verif.Signals.C164_twice_violates"
   ],
   "note": "The statement as written is false of the unchanged code at the points shown by C164_exception_violates, C164_sigint_violates, C164_twice_violates (see DESIGN.md, \"Where the code disagrees with a property\"). Proved with those points excluded: C164_sigint_partial."
  },
  {
   "property": "C165",
   "status": "proved",
   "theorems": [
    "Verif.ObjectSize.C165_size"
   ],
   "note": ""
  },
  {
   "property": "C166",
   "status": "partial",
   "theorems": [
    "Verif.ObjectSize.C166_iterators_violates",
    "Verif.ObjectSize.C166_only_looks_partial",
    "Verif.ObjectSize.C166_size_partial",
    "Verif.ObjectSize.C166_slots_violates",
    "Verif.ObjectSize.C166_subclass_violates"
   ],
   "note": "The statement as written is false of the unchanged code at the points shown by C166_iterators_violates, C166_slots_violates, C166_subclass_violates (see DESIGN.md, \"Where the code disagrees with a property\"). Proved with those points excluded: C166_only_looks_partial, C166_size_partial."
  },
  {
   "property": "C167",
   "status": "proved",
   "theorems": [
    "Verif.Rolling.C167_average"
   ],
   "note": ""
  },
  {
   "property": "C168",
   "status": "partial",
   "theorems": [
    "Verif.Rolling.C168_floats_violates",
    "Verif.Rolling.C168_no_samples_violates",
    "Verif.Rolling.C168_small_partial"
   ],
   "note": "The statement as written is false of the unchanged code at the points shown by C168_floats_violates, C168_no_samples_violates (see DESIGN.md, \"Where the code disagrees with a property\"). Proved with those points excluded: C168_small_partial."
  },
  {
   "property": "C169",
   "status": "proved",
   "theorems": [
    "Verif.Rolling.C169_counts",
    "Verif.Rolling.C169_occurrences",
    "Verif.Rolling.C169_sequence"
   ],
   "note": ""
  },
  {
   "property": "C170",
   "status": "proved",
   "theorems": [
    "Verif.Choose.C170_first",
    "Verif.Choose.C170_index",
    "Verif.Choose.C170_multiple",
    "Verif.Choose.C170_no_index",
    "Verif.Choose.C170_none",
    "Verif.Choose.C170_only"
   ],
   "note": ""
  },
  {
   "property": "C171",
   "status": "partial",
   "theorems": [
    "Verif.Choose.C171_exhausts_partial",
    "Verif.Choose.C171_exhausts_violates"
   ],
   "note": "The statement as written is false of the unchanged code at the points shown by C171_exhausts_violates (see DESIGN.md, \"Where the code disagrees with a property\"). Proved with those points excluded: C171_exhausts_partial."
  },
  {
   "property": "C172",
   "status": "proved",
   "theorems": [
    "Verif.Choose.C172_closed",
    "Verif.Choose.C172_completes",
    "Verif.Choose.C172_raises",
    "Verif.Choose.C172_values"
   ],
   "note": ""
  },
  {
   "property": "C173",
   "status": "partial",
   "theorems": [
    "Verif.Choose.C173_count_partial",
    "Verif.Choose.C173_once_violates",
    "Verif.Choose.C173_raised_violates",
    "Verif.Choose.C173_send_violates"
   ],
   "note": "The statement as written is false of the unchanged code at the points shown by C173_once_violates, C173_raised_violates, C173_send_violates (see DESIGN.md, \"Where the code disagrees with a property\"). Proved with those points excluded: C173_count_partial."
  },
  {
   "property": "C174",
   "status": "proved",
   "theorems": [
    "Verif.Optional.C174_chain",
    "Verif.Optional.C174_extract",
    "Verif.Optional.C174_if_not_none",
    "Verif.Optional.C174_missing",
    "Verif.Optional.C174_present"
   ],
   "note": ""
  },
  {
   "property": "C175",
   "status": "partial",
   "theorems": [
    "Verif.Optional.C175_compare_violates",
    "Verif.Optional.C175_hash_violates",
    "Verif.Optional.C175_present_partial",
    "Verif.Optional.C175_setattr_violates"
   ],
   "note": "The statement as written is false of the unchanged code at the points shown by C175_compare_violates, C175_hash_violates, C175_setattr_violates (see DESIGN.md, \"Where the code disagrees with a property\"). Proved with those points excluded: C175_present_partial."
  },
  {
   "property": "C176",
   "status": "proved",
   "theorems": [
    "Verif.Dump.C176_killed",
    "Verif.Dump.C176_returned",
    "Verif.Dump.C176_whom"
   ],
   "note": ""
  },
  {
   "property": "C177",
   "status": "partial",
   "theorems": [
    "Verif.Dump.C177_hooked_partial",
    "Verif.Dump.C177_installed_violates",
    "Verif.Dump.C177_stderr_violates"
   ],
   "note": "The statement as written is false of the unchanged code at the points shown by C177_installed_violates, C177_stderr_violates (see DESIGN.md, \"Where the code disagrees with a property\"). Proved with those points excluded: C177_hooked_partial."
  },
  {
   "property": "C178",
   "status": "proved",
   "theorems": [
    "Verif.Dump.C178_accepted",
    "Verif.Dump.C178_dumped",
    "Verif.Dump.C178_raises",
    "Verif.Dump.C178_where"
   ],
   "note": ""
  },
  {
   "property": "C179",
   "status": "partial",
   "theorems": [
    "Verif.Dump.C179_fails_violates",
    "Verif.Dump.C179_logger_violates",
    "Verif.Dump.C179_none_violates",
    "Verif.Dump.C179_overwritten_violates",
    "Verif.Dump.C179_streams_partial"
   ],
   "note": "The statement as written is false of the unchanged code at the points shown by C179_fails_violates, C179_logger_violates, C179_none_violates, C179_overwritten_violates (see DESIGN.md, \"Where the code disagrees with a property\"). Proved with those points excluded: C179_streams_partial."
  },
  {
   "property": "C180",
   "status": "proved",
   "theorems": [
    "Verif.NoConflict.C180_compatible",
    "Verif.NoConflict.C180_minimal",
    "Verif.NoConflict.C180_no_conflict",
    "Verif.NoConflict.C180_one_metaclass"
   ],
   "note": ""
  },
  {
   "property": "C181",
   "status": "proved",
   "theorems": [
    "Verif.Docs.C181_documented"
   ],
   "note": ""
  },
  {
   "property": "C182",
   "status": "partial",
   "theorems": [
    "Verif.Docs.C182_copied_partial",
    "Verif.Docs.C182_first_only_violates",
    "Verif.Docs.C182_refused_partial"
   ],
   "note": "The statement as written is false of the unchanged code at the points shown by C182_first_only_violates (see DESIGN.md, \"Where the code disagrees with a property\"). Proved with those points excluded: C182_copied_partial, C182_refused_partial."
  },
  {
   "property": "C183",
   "status": "partial",
   "theorems": [
    "Verif.Docs.C183_nearest_violates",
    "Verif.Docs.C183_others_partial",
    "Verif.Docs.C183_shared_violates"
   ],
   "note": "The statement as written is false of the unchanged code at the points shown by C183_nearest_violates, C183_shared_violates (see DESIGN.md, \"Where the code disagrees with a property\"). Proved with those points excluded: C183_others_partial."
  },
  {
   "property": "C184",
   "status": "proved",
   "theorems": [
    "Verif.Docs.C184_wrapped"
   ],
   "note": ""
  },
  {
   "property": "C185",
   "status": "proved",
   "theorems": [
    "Verif.FromDict.C185_exactly",
    "Verif.FromDict.C185_iterated",
    "Verif.FromDict.C185_list",
    "Verif.FromDict.C185_sound",
    "Verif.FromDict.C185_truth"
   ],
   "note": ""
  },
  {
   "property": "C186",
   "status": "partial",
   "theorems": [
    "Verif.FromDict.C186_no_type_partial",
    "Verif.FromDict.C186_unknown_type_violates"
   ],
   "note": "The statement as written is false of the unchanged code at the points shown by C186_unknown_type_violates (see DESIGN.md, \"Where the code disagrees with a property\"). Proved with those points excluded: C186_no_type_partial."
  },
  {
   "property": "C187",
   "status": "proved",
   "theorems": [
    "Verif.FromDict.C187_environment",
    "Verif.FromDict.C187_json"
   ],
   "note": ""
  },
  {
   "property": "C188",
   "status": "proved",
   "theorems": [
    "Verif.Whereis.C188_executable",
    "Verif.Whereis.C188_found",
    "Verif.Whereis.C188_letters"
   ],
   "note": ""
  },
  {
   "property": "C189",
   "status": "partial",
   "theorems": [
    "Verif.Whereis.C189_directory_violates",
    "Verif.Whereis.C189_permission_violates",
    "Verif.Whereis.C189_setuid_violates",
    "Verif.Whereis.C189_sound_partial"
   ],
   "note": "The statement as written is false of the unchanged code at the points shown by C189_directory_violates, C189_permission_violates, C189_setuid_violates (see DESIGN.md, \"Where the code disagrees with a property\"). Proved with those points excluded: C189_sound_partial."
  },
  {
   "property": "C190",
   "status": "proved",
   "theorems": [
    "Verif.Whereis.C190_daemon"
   ],
   "note": ""
  },
  {
   "property": "C191",
   "status": "partial",
   "theorems": [
    "Verif.Whereis.C191_group_name_violates",
    "Verif.Whereis.C191_unknown_user_partial",
    "Verif.Whereis.C191_user_first_violates"
   ],
   "note": "The statement as written is false of the unchanged code at the points shown by C191_group_name_violates, C191_user_first_violates (see DESIGN.md, \"Where the code disagrees with a property\"). Proved with those points excluded: C191_unknown_user_partial."
  },
  {
   "property": "C192",
   "status": "proved",
   "theorems": [
    "Verif.Loadable.C192_failure",
    "Verif.Loadable.C192_loaded_first",
    "Verif.Loadable.C192_once"
   ],
   "note": ""
  },
  {
   "property": "C193",
   "status": "partial",
   "theorems": [
    "Verif.Loadable.C193_after_partial",
    "Verif.Loadable.C193_documented_violates",
    "Verif.Loadable.C193_twice_violates"
   ],
   "note": "The statement as written is false of the unchanged code at the points shown by C193_documented_violates, C193_twice_violates (see DESIGN.md, \"Where the code disagrees with a property\"). Proved with those points excluded: C193_after_partial."
  },
  {
   "property": "C194",
   "status": "proved",
   "theorems": [
    "Verif.Small.C194_attribute",
    "Verif.Small.C194_call_method",
    "Verif.Small.C194_default_return",
    "Verif.Small.C194_execute_before",
    "Verif.Small.C194_has_keys",
    "Verif.Small.C194_return_as_list",
    "Verif.Small.C194_short_none"
   ],
   "note": ""
  },
  {
   "property": "C195",
   "status": "partial",
   "theorems": [
    "Verif.Small.C195_callable_parameter_violates",
    "Verif.Small.C195_chain_partial",
    "Verif.Small.C195_index_error_violates",
    "Verif.Small.C195_parameters_partial",
    "Verif.Small.C195_twice_violates"
   ],
   "note": "The statement as written is false of the unchanged code at the points shown by C195_callable_parameter_violates, C195_index_error_violates, C195_twice_violates (see DESIGN.md, \"Where the code disagrees with a property\"). Proved with those points excluded: C195_chain_partial, C195_parameters_partial."
  },
  {
   "property": "C196",
   "status": "proved",
   "theorems": [
    "Verif.CopyArgs.C196_deep",
    "Verif.CopyArgs.C196_each",
    "Verif.CopyArgs.C196_shallow"
   ],
   "note": ""
  },
  {
   "property": "C197",
   "status": "proved",
   "theorems": [
    "Verif.Updates.C197_attributes",
    "Verif.Updates.C197_contains",
    "Verif.Updates.C197_dictionaries",
    "Verif.Updates.C197_length"
   ],
   "note": ""
  },
  {
   "property": "C198",
   "status": "proved",
   "theorems": [
    "Verif.Shuffle.C198_together",
    "Verif.Shuffle.C198_word"
   ],
   "note": ""
  },
  {
   "property": "C199",
   "status": "partial",
   "theorems": [
    "Verif.Shuffle.C199_longer_violates",
    "Verif.Shuffle.C199_shorter_partial"
   ],
   "note": "The statement as written is false of the unchanged code at the points shown by C199_longer_violates (see DESIGN.md, \"Where the code disagrees with a property\"). Proved with those points excluded: C199_shorter_partial."
  },
  {
   "property": "C200",
   "status": "proved",
   "theorems": [
    "Verif.Expect.C200_empty",
    "Verif.Expect.C200_expected",
    "Verif.Expect.C200_wrapped"
   ],
   "note": ""
  },
  {
   "property": "C201",
   "status": "partial",
   "theorems": [
    "Verif.Expect.C201_list_partial",
    "Verif.Expect.C201_list_violates"
   ],
   "note": "The statement as written is false of the unchanged code at the points shown by C201_list_violates (see DESIGN.md, \"Where the code disagrees with a property\"). Proved with those points excluded: C201_list_partial."
  },
  {
   "property": "C202",
   "status": "proved",
   "theorems": [
    "Verif.TaintEnv.C202_threads"
   ],
   "note": ""
  },
  {
   "property": "C203",
   "status": "partial",
   "theorems": [
    "Verif.TaintEnv.C203_enabled_partial",
    "Verif.TaintEnv.C203_refused_violates",
    "Verif.TaintEnv.C203_two_threads_violates"
   ],
   "note": "The statement as written is false of the unchanged code at the points shown by C203_refused_violates, C203_two_threads_violates (see DESIGN.md, \"Where the code disagrees with a property\"). Proved with those points excluded: C203_enabled_partial."
  },
  {
   "property": "C204",
   "status": "proved",
   "theorems": [
    "Verif.LockedStructure.C204_again",
    "Verif.LockedStructure.C204_free",
    "Verif.LockedStructure.C204_not_reentrant",
    "Verif.LockedStructure.C204_serial"
   ],
   "note": ""
  },
  {
   "property": "C205",
   "status": "proved",
   "theorems": [
    "Verif.SchemaBasic.C205_boolean",
    "Verif.SchemaBasic.C205_boolean_again",
    "Verif.SchemaBasic.C205_checkers",
    "Verif.SchemaBasic.C205_contents",
    "Verif.SchemaBasic.C205_equality",
    "Verif.SchemaBasic.C205_files",
    "Verif.SchemaBasic.C205_refused",
    "Verif.SchemaBasic.C205_undecodable"
   ],
   "note": ""
  },
  {
   "property": "C206",
   "status": "partial",
   "theorems": [
    "Verif.SchemaBasic.C206_checks_partial",
    "Verif.SchemaBasic.C206_infinite_violates",
    "Verif.SchemaBasic.C206_integer_partial",
    "Verif.SchemaBasic.C206_integer_values_partial",
    "Verif.SchemaBasic.C206_missing_violates",
    "Verif.SchemaBasic.C206_second_time_violates",
    "Verif.SchemaBasic.C206_string_violates"
   ],
   "note": "The statement as written is false of the unchanged code at the points shown by C206_infinite_violates, C206_missing_violates, C206_second_time_violates, C206_string_violates (see DESIGN.md, \"Where the code disagrees with a property\"). Proved with those points excluded: C206_checks_partial, C206_integer_partial, C206_integer_values_partial."
  },
  {
   "property": "C207",
   "status": "proved",
   "theorems": [
    "Verif.Trace.C207_traced"
   ],
   "note": ""
  },
  {
   "property": "C208",
   "status": "partial",
   "theorems": [
    "Verif.Trace.C208_attached_partial",
    "Verif.Trace.C208_cancelled_violates",
    "Verif.Trace.C208_closed_partial",
    "Verif.Trace.C208_exception_violates",
    "Verif.Trace.C208_type_error_violates"
   ],
   "note": "The statement as written is false of the unchanged code at the points shown by C208_cancelled_violates, C208_exception_violates, C208_type_error_violates (see DESIGN.md, \"Where the code disagrees with a property\"). Proved with those points excluded: C208_attached_partial, C208_closed_partial."
  },
  {
   "property": "C209",
   "status": "proved",
   "theorems": [
    "Verif.Trace.C209_exception"
   ],
   "note": ""
  },
  {
   "property": "C210",
   "status": "partial",
   "theorems": [
    "Verif.Trace.C210_nothing_partial",
    "Verif.Trace.C210_traceback_violates",
    "Verif.Trace.C210_zero_violates"
   ],
   "note": "The statement as written is false of the unchanged code at the points shown by C210_traceback_violates, C210_zero_violates (see DESIGN.md, \"Where the code disagrees with a property\"). Proved with those points excluded: C210_nothing_partial."
  },
  {
   "property": "C211",
   "status": "proved",
   "theorems": [
    "Verif.Cassandra.C211_lazy",
    "Verif.Cassandra.C211_parallel",
    "Verif.Cassandra.C211_wrapped"
   ],
   "note": ""
  },
  {
   "property": "C212",
   "status": "proved",
   "theorems": [
    "Verif.Metrics.C212_callable",
    "Verif.Metrics.C212_labeled",
    "Verif.Metrics.C212_uptime"
   ],
   "note": ""
  },
  {
   "property": "C213",
   "status": "proved",
   "theorems": [
    "Verif.Prometheus.C213_metrics",
    "Verif.Prometheus.C213_other_paths",
    "Verif.Prometheus.C213_served",
    "Verif.Prometheus.C213_terminated"
   ],
   "note": ""
  },
  {
   "property": "C214",
   "status": "partial",
   "theorems": [
    "Verif.Prometheus.C214_all_partial",
    "Verif.Prometheus.C214_lost_violates",
    "Verif.Prometheus.C214_never_returns_violates",
    "Verif.Prometheus.C214_returns_partial"
   ],
   "note": "The statement as written is false of the unchanged code at the points shown by C214_lost_violates, C214_never_returns_violates (see DESIGN.md, \"Where the code disagrees with a property\"). Proved with those points excluded: C214_all_partial, C214_returns_partial."
  },
  {
   "property": "C215",
   "status": "proved",
   "theorems": [
    "Verif.MonitorSet.C215_atomic",
    "Verif.MonitorSet.C215_once"
   ],
   "note": ""
  },
  {
   "property": "C216",
   "status": "proved",
   "theorems": [
    "Verif.Maintenance.C216_alive",
    "Verif.Maintenance.C216_passes"
   ],
   "note": ""
  },
  {
   "property": "C217",
   "status": "partial",
   "theorems": [
    "Verif.Maintenance.C217_iterating_violates",
    "Verif.Maintenance.C217_making_violates",
    "Verif.Maintenance.C217_no_deadlock_partial",
    "Verif.Maintenance.C217_raising_violates"
   ],
   "note": "The statement as written is false of the unchanged code at the points shown by C217_iterating_violates, C217_making_violates, C217_raising_violates (see DESIGN.md, \"Where the code disagrees with a property\"). Proved with those points excluded: C217_no_deadlock_partial."
  },
  {
   "property": "C218",
   "status": "proved",
   "theorems": [
    "Verif.Bogus.C218_join",
    "Verif.Bogus.C218_life"
   ],
   "note": ""
  },
  {
   "property": "C219",
   "status": "proved",
   "theorems": [
    "Verif.Bogus.C219_each_caller",
    "Verif.Bogus.C219_once"
   ],
   "note": ""
  },
  {
   "property": "C220",
   "status": "partial",
   "theorems": [
    "Verif.Bogus.C220_calls_partial",
    "Verif.Bogus.C220_join_partial",
    "Verif.Bogus.C220_join_violates",
    "Verif.Bogus.C220_race_violates",
    "Verif.Bogus.C220_returns_violates"
   ],
   "note": "The statement as written is false of the unchanged code at the points shown by C220_join_violates, C220_race_violates, C220_returns_violates (see DESIGN.md, \"Where the code disagrees with a property\"). Proved with those points excluded: C220_calls_partial, C220_join_partial."
  },
  {
   "property": "C221",
   "status": "proved",
   "theorems": [
    "Verif.QueueIterator.C221_alone",
    "Verif.QueueIterator.C221_each_once",
    "Verif.QueueIterator.C221_progress"
   ],
   "note": ""
  },
  {
   "property": "C222",
   "status": "proved",
   "theorems": [
    "Verif.SliceableDeque.C222_item",
    "Verif.SliceableDeque.C222_live",
    "Verif.SliceableDeque.C222_slice"
   ],
   "note": ""
  },
  {
   "property": "C223",
   "status": "proved",
   "theorems": [
    "Verif.Condition.C223_legal",
    "Verif.Condition.C223_locked",
    "Verif.Condition.C223_told"
   ],
   "note": ""
  },
  {
   "property": "C224",
   "status": "partial",
   "theorems": [
    "Verif.Condition.C224_kept_partial",
    "Verif.Condition.C224_lost_violates",
    "Verif.Condition.C224_plain_violates"
   ],
   "note": "The statement as written is false of the unchanged code at the points shown by C224_lost_violates, C224_plain_violates (see DESIGN.md, \"Where the code disagrees with a property\"). Proved with those points excluded: C224_kept_partial."
  },
  {
   "property": "C225",
   "status": "proved",
   "theorems": [
    "Verif.Files.Lines.C225_errors",
    "Verif.Files.Lines.C225_lines"
   ],
   "note": ""
  },
  {
   "property": "C226",
   "status": "partial",
   "theorems": [
    "Verif.Files.Lines.C226_emptied_violates",
    "Verif.Files.Lines.C226_newlines_violates",
    "Verif.Files.Lines.C226_sub_partial"
   ],
   "note": "The statement as written is false of the unchanged code at the points shown by C226_emptied_violates, C226_newlines_violates (see DESIGN.md, \"Where the code disagrees with a property\"). Proved with those points excluded: C226_sub_partial."
  },
  {
   "property": "C227",
   "status": "proved",
   "theorems": [
    "Verif.Files.Lines.C227_null"
   ],
   "note": ""
  },
  {
   "property": "C228",
   "status": "partial",
   "theorems": [
    "Verif.Schema.C228_again_violates",
    "Verif.Schema.C228_descriptor_partial",
    "Verif.Schema.C228_json_partial",
    "Verif.Schema.C228_raises"
   ],
   "note": "The statement as written is false of the unchanged code at the points shown by C228_again_violates (see DESIGN.md, \"Where the code disagrees with a property\"). Proved with those points excluded: C228_descriptor_partial, C228_json_partial. Proved without restriction: C228_raises."
  },
  {
   "property": "C229",
   "status": "proved",
   "theorems": [
    "Verif.MonitorCopy.C229_copy"
   ],
   "note": ""
  },
  {
   "property": "C230",
   "status": "partial",
   "theorems": [
    "Verif.MonitorCopy.C230_deepcopy_partial",
    "Verif.MonitorCopy.C230_itself_violates"
   ],
   "note": "The statement as written is false of the unchanged code at the points shown by C230_itself_violates (see DESIGN.md, \"Where the code disagrees with a property\"). Proved with those points excluded: C230_deepcopy_partial."
  },
  {
   "property": "C231",
   "status": "proved",
   "theorems": [
    "Verif.AdaptMethods.C231_class_or_instance"
   ],
   "note": ""
  },
  {
   "property": "C232",
   "status": "proved",
   "theorems": [
    "Verif.AdaptMethods.C232_functions",
    "Verif.AdaptMethods.C232_hidden"
   ],
   "note": ""
  },
  {
   "property": "C233",
   "status": "partial",
   "theorems": [
    "Verif.AdaptMethods.C233_class_violates",
    "Verif.AdaptMethods.C233_memory_violates",
    "Verif.AdaptMethods.C233_once_partial"
   ],
   "note": "The statement as written is false of the unchanged code at the points shown by C233_class_violates, C233_memory_violates (see DESIGN.md, \"Where the code disagrees with a property\"). Proved with those points excluded: C233_once_partial."
  },
  {
   "property": "C234",
   "status": "proved",
   "theorems": [
    "Verif.PrettyPrint.C234_formatted",
    "Verif.PrettyPrint.C234_printed",
    "Verif.PrettyPrint.C234_str"
   ],
   "note": ""
  },
  {
   "property": "C235",
   "status": "proved",
   "theorems": [
    "Verif.Reprable.C235_distinguishes",
    "Verif.Reprable.C235_repr"
   ],
   "note": ""
  },
  {
   "property": "C236",
   "status": "proved",
   "theorems": [
    "Verif.CpuThread.C236_life",
    "Verif.CpuThread.C236_terminates"
   ],
   "note": ""
  },
  {
   "property": "C237",
   "status": "proved",
   "theorems": [
    "Verif.Multirun.C237_each",
    "Verif.Multirun.C237_immutable",
    "Verif.Multirun.C237_sequence",
    "Verif.Multirun.C237_truth",
    "Verif.Multirun.C237_unknown"
   ],
   "note": ""
  },
  {
   "property": "C238",
   "status": "proved",
   "theorems": [
    "Verif.Wraps.C238_copied",
    "Verif.Wraps.C238_returns",
    "Verif.Wraps.C238_stack",
    "Verif.Wraps.C238_untouched"
   ],
   "note": ""
  },
  {
   "property": "C239",
   "status": "partial",
   "theorems": [
    "Verif.Syncable.Threads.C239_cleaning_raises_violates",
    "Verif.Syncable.Threads.C239_lost_violates",
    "Verif.Syncable.Threads.C239_one_adds_partial",
    "Verif.Syncable.Threads.C239_order_violates"
   ],
   "note": "The statement as written is false of the unchanged code at the points shown by C239_cleaning_raises_violates, C239_lost_violates, C239_order_violates (see DESIGN.md, \"Where the code disagrees with a property\"). Proved with those points excluded: C239_one_adds_partial."
  },
  {
   "property": "C240",
   "status": "proved",
   "theorems": [
    "Verif.Seq.Small.C240_counter",
    "Verif.Seq.Small.C240_factory_raises",
    "Verif.Seq.Small.C240_filter_out",
    "Verif.Seq.Small.C240_filter_out_raises",
    "Verif.Seq.Small.C240_infinite",
    "Verif.Seq.Small.C240_lazy",
    "Verif.Seq.Small.C240_make_list",
    "Verif.Seq.Small.C240_make_list_atom",
    "Verif.Seq.Small.C240_make_list_shallow",
    "Verif.Seq.Small.C240_map_list",
    "Verif.Seq.Small.C240_one_tuple",
    "Verif.Seq.Small.C240_to_iterator"
   ],
   "note": ""
  },
  {
   "property": "C241",
   "status": "partial",
   "theorems": [
    "Verif.Misc.Numbers.C241_infinity_violates",
    "Verif.Misc.Numbers.C241_int",
    "Verif.Misc.Numbers.C241_intify_partial",
    "Verif.Misc.Numbers.C241_time",
    "Verif.Misc.Numbers.C241_time_monotone"
   ],
   "note": "The statement as written is false of the unchanged code at the points shown by C241_infinity_violates (see DESIGN.md, \"Where the code disagrees with a property\"). Proved with those points excluded: C241_intify_partial. Proved without restriction: C241_int, C241_time, C241_time_monotone."
  },
  {
   "property": "C242",
   "status": "proved",
   "theorems": [
    "Verif.Misc.Numbers.C242_binary",
    "Verif.Misc.Numbers.C242_every_word",
    "Verif.Misc.Numbers.C242_no_choice",
    "Verif.Misc.Numbers.C242_word"
   ],
   "note": ""
  },
  {
   "property": "C243",
   "status": "partial",
   "theorems": [
    "Verif.Memory.Dump.C243_dump_partial",
    "Verif.Memory.Dump.C243_repr_violates",
    "Verif.Memory.Dump.C243_total_partial"
   ],
   "note": "The statement as written is false of the unchanged code at the points shown by C243_repr_violates (see DESIGN.md, \"Where the code disagrees with a property\"). Proved with those points excluded: C243_dump_partial, C243_total_partial."
  },
  {
   "property": "C244",
   "status": "partial",
   "theorems": [
    "Verif.Conc.ParallelThreads.C244_alone_partial",
    "Verif.Conc.ParallelThreads.C244_fails_iff",
    "Verif.Conc.ParallelThreads.C244_own_arguments",
    "Verif.Conc.ParallelThreads.C244_own_dicts",
    "Verif.Conc.ParallelThreads.C244_two_threads_violates"
   ],
   "note": "The statement as written is false of the unchanged code at the points shown by C244_two_threads_violates (see DESIGN.md, \"Where the code disagrees with a property\"). Proved with those points excluded: C244_alone_partial. Proved without restriction: C244_fails_iff, C244_own_arguments, C244_own_dicts."
  },
  {
   "property": "C245",
   "status": "proved",
   "theorems": [
    "Verif.Deco.Forever.C245_ends",
    "Verif.Deco.Forever.C245_forever"
   ],
   "note": ""
  },
  {
   "property": "C246",
   "status": "partial",
   "theorems": [
    "Verif.Expiring.Threads.C246_expired_partial",
    "Verif.Expiring.Threads.C246_found_partial",
    "Verif.Expiring.Threads.C246_violates_lost",
    "Verif.Expiring.Threads.C246_violates_overwriting"
   ],
   "note": "The statement as written is false of the unchanged code at the points shown by C246_violates_lost, C246_violates_overwriting (see DESIGN.md, \"Where the code disagrees with a property\"). Proved with those points excluded: C246_expired_partial, C246_found_partial."
  },
  {
   "property": "C247",
   "status": "proved",
   "theorems": [
    "Verif.TaintHeap.C247_deep",
    "Verif.TaintHeap.C247_elements",
    "Verif.TaintHeap.C247_elements_when",
    "Verif.TaintHeap.C247_needs_session",
    "Verif.TaintHeap.C247_same_contents",
    "Verif.TaintHeap.C247_succeeds",
    "Verif.TaintHeap.C247_sum",
    "Verif.TaintHeap.C247_untouched"
   ],
   "note": ""
  },
  {
   "property": "C248",
   "status": "partial",
   "theorems": [
    "Verif.TaintHeap.C248_end_partial",
    "Verif.TaintHeap.C248_succeeds_partial",
    "Verif.TaintHeap.C248_violates_cycle",
    "Verif.TaintHeap.C248_violates_end"
   ],
   "note": "The statement as written is false of the unchanged code at the points shown by C248_violates_cycle, C248_violates_end (see DESIGN.md, \"Where the code disagrees with a property\"). Proved with those points excluded: C248_end_partial, C248_succeeds_partial."
  },
  {
   "property": "C249",
   "status": "proved",
   "theorems": [
    "Verif.Metrics.CounterThreads.C249_labels",
    "Verif.Metrics.CounterThreads.C249_own",
    "Verif.Metrics.CounterThreads.C249_some"
   ],
   "note": ""
  },
  {
   "property": "C250",
   "status": "partial",
   "theorems": [
    "Verif.Metrics.CounterThreads.C250_one_thread_partial",
    "Verif.Metrics.CounterThreads.C250_violates_lost",
    "Verif.Metrics.CounterThreads.C250_violates_stuck"
   ],
   "note": "The statement as written is false of the unchanged code at the points shown by C250_violates_lost, C250_violates_stuck (see DESIGN.md, \"Where the code disagrees with a property\"). Proved with those points excluded: C250_one_thread_partial."
  },
  {
   "property": "C251",
   "status": "proved",
   "theorems": [
    "Verif.Metrics.SummaryThreads.C251_latest",
    "Verif.Metrics.SummaryThreads.C251_no_raise"
   ],
   "note": ""
  },
  {
   "property": "C252",
   "status": "partial",
   "theorems": [
    "Verif.Metrics.SummaryThreads.C252_one_thread_partial",
    "Verif.Metrics.SummaryThreads.C252_violates_grows",
    "Verif.Metrics.SummaryThreads.C252_violates_quantile",
    "Verif.Metrics.SummaryThreads.C252_violates_raise"
   ],
   "note": "The statement as written is false of the unchanged code at the points shown by C252_violates_grows, C252_violates_quantile, C252_violates_raise (see DESIGN.md, \"Where the code disagrees with a property\"). Proved with those points excluded: C252_one_thread_partial."
  },
  {
   "property": "C253",
   "status": "proved",
   "theorems": [
    "Verif.Metrics.CpsThreads.C253_at_most",
    "Verif.Metrics.CpsThreads.C253_latest",
    "Verif.Metrics.CpsThreads.C253_one_click",
    "Verif.Metrics.CpsThreads.C253_times"
   ],
   "note": ""
  },
  {
   "property": "C254",
   "status": "partial",
   "theorems": [
    "Verif.Metrics.CpsThreads.C254_one_thread_partial",
    "Verif.Metrics.CpsThreads.C254_violates_lost",
    "Verif.Metrics.CpsThreads.C254_violates_raise"
   ],
   "note": "The statement as written is false of the unchanged code at the points shown by C254_violates_lost, C254_violates_raise (see DESIGN.md, \"Where the code disagrees with a property\"). Proved with those points excluded: C254_one_thread_partial."
  },
  {
   "property": "C255",
   "status": "proved",
   "theorems": [
    "Verif.Struct.SingletonThreads.C255_key",
    "Verif.Struct.SingletonThreads.C255_settled",
    "Verif.Struct.SingletonThreads.C255_single_settled"
   ],
   "note": ""
  },
  {
   "property": "C256",
   "status": "partial",
   "theorems": [
    "Verif.Struct.SingletonThreads.C256_one_thread_partial",
    "Verif.Struct.SingletonThreads.C256_violates_forgotten",
    "Verif.Struct.SingletonThreads.C256_violates_not_initialised",
    "Verif.Struct.SingletonThreads.C256_violates_two"
   ],
   "note": "The statement as written is false of the unchanged code at the points shown by C256_violates_forgotten, C256_violates_not_initialised, C256_violates_two (see DESIGN.md, \"Where the code disagrees with a property\"). Proved with those points excluded: C256_one_thread_partial."
  },
  {
   "property": "C257",
   "status": "proved",
   "theorems": [
    "Verif.Instr.Builder.C257_once",
    "Verif.Instr.Builder.C257_settled"
   ],
   "note": ""
  },
  {
   "property": "C258",
   "status": "partial",
   "theorems": [
    "Verif.Instr.Builder.C258_one_thread_partial",
    "Verif.Instr.Builder.C258_violates_raise",
    "Verif.Instr.Builder.C258_violates_two"
   ],
   "note": "The statement as written is false of the unchanged code at the points shown by C258_violates_raise, C258_violates_two (see DESIGN.md, \"Where the code disagrees with a property\"). Proved with those points excluded: C258_one_thread_partial."
  },
  {
   "property": "C259",
   "status": "proved",
   "theorems": [
    "Verif.Metrics.EmbeddedThreads.C259_all",
    "Verif.Metrics.EmbeddedThreads.C259_at_most",
    "Verif.Metrics.EmbeddedThreads.C259_settled"
   ],
   "note": ""
  },
  {
   "property": "C260",
   "status": "partial",
   "theorems": [
    "Verif.Metrics.EmbeddedThreads.C260_one_at_a_time_partial",
    "Verif.Metrics.EmbeddedThreads.C260_violates_missing",
    "Verif.Metrics.EmbeddedThreads.C260_violates_two"
   ],
   "note": "The statement as written is false of the unchanged code at the points shown by C260_violates_missing, C260_violates_two (see DESIGN.md, \"Where the code disagrees with a property\"). Proved with those points excluded: C260_one_at_a_time_partial."
  },
  {
   "property": "C261",
   "status": "proved",
   "theorems": [
    "Verif.Group.Threads.C261_added",
    "Verif.Group.Threads.C261_ends",
    "Verif.Group.Threads.C261_once_per_call"
   ],
   "note": ""
  },
  {
   "property": "C262",
   "status": "partial",
   "theorems": [
    "Verif.Group.Threads.C262_one_shot_partial",
    "Verif.Group.Threads.C262_stays_partial",
    "Verif.Group.Threads.C262_violates_added",
    "Verif.Group.Threads.C262_violates_lost",
    "Verif.Group.Threads.C262_violates_missed",
    "Verif.Group.Threads.C262_violates_one_shot",
    "Verif.Group.Threads.C262_violates_raise"
   ],
   "note": "The statement as written is false of the unchanged code at the points shown by C262_violates_added, C262_violates_lost, C262_violates_missed, C262_violates_one_shot, C262_violates_raise (see DESIGN.md, \"Where the code disagrees with a property\"). Proved with those points excluded: C262_one_shot_partial, C262_stays_partial."
  },
  {
   "property": "C263",
   "status": "proved",
   "theorems": [
    "Verif.Writeback.Threads.C263_ends",
    "Verif.Writeback.Threads.C263_storage",
    "Verif.Writeback.Threads.C263_storage_reached",
    "Verif.Writeback.Threads.C263_values"
   ],
   "note": ""
  },
  {
   "property": "C264",
   "status": "partial",
   "theorems": [
    "Verif.Writeback.Threads.C264_one_at_a_time_partial",
    "Verif.Writeback.Threads.C264_violates_delete",
    "Verif.Writeback.Threads.C264_violates_set",
    "Verif.Writeback.Threads.C264_violates_two_sets"
   ],
   "note": "The statement as written is false of the unchanged code at the points shown by C264_violates_delete, C264_violates_set, C264_violates_two_sets (see DESIGN.md, \"Where the code disagrees with a property\"). Proved with those points excluded: C264_one_at_a_time_partial."
  },
  {
   "property": "C265",
   "status": "partial",
   "theorems": [
    "Verif.Time.BackoffThreads.C265_no_type_error_partial",
    "Verif.Time.BackoffThreads.C265_success_violates",
    "Verif.Time.BackoffThreads.C265_two_waiting_violates",
    "Verif.Time.BackoffThreads.C265_woken_partial",
    "Verif.Time.BackoffThreads.C265_would_wait_partial"
   ],
   "note": "The statement as written is false of the unchanged code at the points shown by C265_success_violates, C265_two_waiting_violates (see DESIGN.md, \"Where the code disagrees with a property\"). Proved with those points excluded: C265_no_type_error_partial, C265_woken_partial, C265_would_wait_partial."
  },
  {
   "property": "C266",
   "status": "partial",
   "theorems": [
    "Verif.Time.BackoffThreads.C266_forgotten_violates",
    "Verif.Time.BackoffThreads.C266_returns_partial"
   ],
   "note": "The statement as written is false of the unchanged code at the points shown by C266_forgotten_violates (see DESIGN.md, \"Where the code disagrees with a property\"). Proved with those points excluded: C266_returns_partial."
  },
  {
   "property": "C267",
   "status": "partial",
   "theorems": [
    "Verif.Futures.Th.C267_cancel_returns",
    "Verif.Futures.Th.C267_changes_violates",
    "Verif.Futures.Th.C267_done_callbacks_partial",
    "Verif.Futures.Th.C267_early_violates",
    "Verif.Futures.Th.C267_one_outcome",
    "Verif.Futures.Th.C267_overwritten_violates",
    "Verif.Futures.Th.C267_result_partial"
   ],
   "note": "The statement as written is false of the unchanged code at the points shown by C267_changes_violates, C267_early_violates, C267_overwritten_violates (see DESIGN.md, \"Where the code disagrees with a property\"). Proved with those points excluded: C267_done_callbacks_partial, C267_result_partial. Proved without restriction: C267_cancel_returns, C267_one_outcome."
  },
  {
   "property": "C268",
   "status": "proved",
   "theorems": [
    "Verif.Futures.Th.C268_adds",
    "Verif.Futures.Th.C268_once"
   ],
   "note": ""
  },
  {
   "property": "C269",
   "status": "proved",
   "theorems": [
    "Verif.Futures.Th.C269_becomes_done",
    "Verif.Futures.Th.C269_no_waiting",
    "Verif.Futures.Th.C269_returns"
   ],
   "note": ""
  },
  {
   "property": "C270",
   "status": "proved",
   "theorems": [
    "Verif.Metrics.HistogramThreads.C270_apart",
    "Verif.Metrics.HistogramThreads.C270_at_most"
   ],
   "note": ""
  },
  {
   "property": "C271",
   "status": "partial",
   "theorems": [
    "Verif.Metrics.HistogramThreads.C271_decreases_violates",
    "Verif.Metrics.HistogramThreads.C271_lost_violates",
    "Verif.Metrics.HistogramThreads.C271_total_partial"
   ],
   "note": "The statement as written is false of the unchanged code at the points shown by C271_decreases_violates, C271_lost_violates (see DESIGN.md, \"Where the code disagrees with a property\"). Proved with those points excluded: C271_total_partial."
  },
  {
   "property": "C272",
   "status": "partial",
   "theorems": [
    "Verif.Config.C272_code_violates",
    "Verif.Config.C272_not_a_dictionary_violates",
    "Verif.Config.C272_provides_partial"
   ],
   "note": "The statement as written is false of the unchanged code at the points shown by C272_code_violates, C272_not_a_dictionary_violates (see DESIGN.md, \"Where the code disagrees with a property\"). Proved with those points excluded: C272_provides_partial."
  },
  {
   "property": "C273",
   "status": "proved",
   "theorems": [
    "Verif.Expiring.Threads.C273_ends",
    "Verif.Expiring.Threads.C273_in_order"
   ],
   "note": ""
  },
  {
   "property": "C274",
   "status": "proved",
   "theorems": [
    "Verif.Expiring.SelfCleaning.C274_ends",
    "Verif.Expiring.SelfCleaning.C274_one_map"
   ],
   "note": ""
  },
  {
   "property": "C275",
   "status": "partial",
   "theorems": [
    "Verif.Expiring.SelfCleaning.C275_assignment_violates",
    "Verif.Expiring.SelfCleaning.C275_lookup_violates",
    "Verif.Expiring.SelfCleaning.C275_raises_partial",
    "Verif.Expiring.SelfCleaning.C275_two_deletions_violates"
   ],
   "note": "The statement as written is false of the unchanged code at the points shown by C275_assignment_violates, C275_lookup_violates, C275_two_deletions_violates (see DESIGN.md, \"Where the code disagrees with a property\"). Proved with those points excluded: C275_raises_partial."
  },
  {
   "property": "C276",
   "status": "proved",
   "theorems": [
    "Verif.Cache.Threads.C276_answered",
    "Verif.Cache.Threads.C276_values"
   ],
   "note": ""
  },
  {
   "property": "C277",
   "status": "partial",
   "theorems": [
    "Verif.Cache.Threads.C277_fetched_violates",
    "Verif.Cache.Threads.C277_kept_partial",
    "Verif.Cache.Threads.C277_separate_partial",
    "Verif.Cache.Threads.C277_spoilt_violates"
   ],
   "note": "The statement as written is false of the unchanged code at the points shown by C277_fetched_violates, C277_spoilt_violates (see DESIGN.md, \"Where the code disagrees with a property\"). Proved with those points excluded: C277_kept_partial, C277_separate_partial."
  },
  {
   "property": "C278",
   "status": "partial",
   "theorems": [
    "Verif.Cache.Threads.C278_age_partial",
    "Verif.Cache.Threads.C278_expired_violates"
   ],
   "note": "The statement as written is false of the unchanged code at the points shown by C278_expired_violates (see DESIGN.md, \"Where the code disagrees with a property\"). Proved with those points excluded: C278_age_partial."
  },
  {
   "property": "C279",
   "status": "partial",
   "theorems": [
    "Verif.Cache.Failures.C279_none_partial",
    "Verif.Cache.Failures.C279_none_violates",
    "Verif.Cache.Failures.C279_values"
   ],
   "note": "The statement as written is false of the unchanged code at the points shown by C279_none_violates (see DESIGN.md, \"Where the code disagrees with a property\"). Proved with those points excluded: C279_none_partial. Proved without restriction: C279_values."
  },
  {
   "property": "C280",
   "status": "proved",
   "theorems": [
    "Verif.Heap.Generators.C280_calls",
    "Verif.Heap.Generators.C280_next"
   ],
   "note": ""
  },
  {
   "property": "C281",
   "status": "proved",
   "theorems": [
    "Verif.Heap.SetGenerators.C281_calls",
    "Verif.Heap.SetGenerators.C281_next"
   ],
   "note": ""
  },
  {
   "property": "C282",
   "status": "proved",
   "theorems": [
    "Verif.Heap.Ascending.C282_ascending",
    "Verif.Heap.Ascending.C282_calls"
   ],
   "note": ""
  },
  {
   "property": "C283",
   "status": "partial",
   "theorems": [
    "Verif.Syncable.Archive.C283_ascending",
    "Verif.Syncable.Archive.C283_complete_partial",
    "Verif.Syncable.Archive.C283_passed_over_violates"
   ],
   "note": "The statement as written is false of the unchanged code at the points shown by C283_passed_over_violates (see DESIGN.md, \"Where the code disagrees with a property\"). Proved with those points excluded: C283_complete_partial. Proved without restriction: C283_ascending."
  },
  {
   "property": "C284",
   "status": "partial",
   "theorems": [
    "Verif.Group.Often.C284_first_violates",
    "Verif.Group.Often.C284_interval_partial",
    "Verif.Group.Often.C284_suppressed_partial",
    "Verif.Group.Often.C284_two_violates"
   ],
   "note": "The statement as written is false of the unchanged code at the points shown by C284_first_violates, C284_two_violates (see DESIGN.md, \"Where the code disagrees with a property\"). Proved with those points excluded: C284_interval_partial, C284_suppressed_partial."
  }
 ]
}