{
 "claims": [
  {
   "property": "C01",
   "status": "proved",
   "theorems": [
    "Growt.C01_bounded_table_is_map",
    "Growt.C01_every_returned_call"
   ],
   "note": "All call sequences, hash functions and modes. Total correctness; with circular probing a call on a table without empty slot may diverge (C12), so there it is partial correctness once as many insertions as slots were called. The iterator of a successful plain insert is exempt (C09)."
  },
  {
   "property": "C02",
   "status": "partial",
   "theorems": [
    "Growt.C02_linearizable_partial",
    "Growt.C02_linearizable_markable"
   ],
   "note": "All executions, any number of threads. Full for markable tables; for tables without marks under Mix (false without, C05)."
  },
  {
   "property": "C03",
   "status": "proved",
   "theorems": [
    "Growt.C03_at_most_one_winner"
   ],
   "note": "For every execution with any number of threads, all calls but the explicitly unsafe ones."
  },
  {
   "property": "C04",
   "status": "partial",
   "theorems": [
    "Growt.C04_markable",
    "Growt.C04_no_lost_update_partial",
    "Growt.C04_increments_add_up_partial",
    "Growt.C04_acknowledged_increment_lost"
   ],
   "note": "Full on tables with markable slots. On tables without, proved if no key is both removed and updated (Mix), and shown to be violated otherwise: an update can be reported successful on a tombstone."
  },
  {
   "property": "C05",
   "status": "partial",
   "theorems": [
    "Growt.C05_update_erase_interfere",
    "Growt.C05_split_keys_partial"
   ],
   "note": "Violated by the code: an update of a key can be reported successful on a tombstone; linearizable if removed and updated keys are disjoint."
  },
  {
   "property": "C06",
   "status": "proved",
   "theorems": [
    "Growt.C06_erase_if"
   ],
   "note": "All calls but the explicitly unsafe ones."
  },
  {
   "property": "C07",
   "status": "partial",
   "theorems": [
    "Growt.C07_markable",
    "Growt.C07_insert_or_update_partial",
    "Growt.C07_insert_or_assign_partial",
    "Growt.C07_absent_key_reported_updated"
   ],
   "note": "Full on tables with markable slots. On tables without, proved if no key is both removed and updated (Mix), and shown to be violated otherwise."
  },
  {
   "property": "C08",
   "status": "proved",
   "theorems": [
    "Growt.C08_update_with_backoff",
    "Growt.C08_backoff_true_is_update"
   ],
   "note": "All calls but the explicitly unsafe ones."
  },
  {
   "property": "C09",
   "status": "partial",
   "theorems": [
    "Growt.C09_insert_iterator_shows_empty_slot",
    "Growt.C09_insert_or_update_iterator_partial"
   ],
   "note": "Violated by the code: the iterator of a successful insert always carries the empty slot; holds for insert_or_update."
  },
  {
   "property": "C10",
   "status": "partial",
   "theorems": [
    "Growt.C10_bracket_assign_partial",
    "Growt.C10_bracket_assign_lost"
   ],
   "note": "Violated by the code for absent keys with asynchronous growth (for every table, key and value); proved for present keys and for tables without marks. Without concurrent access."
  },
  {
   "property": "C11",
   "status": "partial",
   "theorems": [
    "Growt.C11_no_out_of_bounds_partial",
    "Growt.C12_terminates_with_room",
    "Growt.C23_equal_hashes_never_return",
    "Growt.C20_no_uninitialised_read",
    "Growt.C20_modified_source_partial"
   ],
   "note": "The termination half is violated by the code (proved): through a growing handle the insertion of the 303rd key with the same hash value grows the table for ever. No access outside the allocation: proved for all operations of the table and all steps of all migrations of it, except asynchronous migrations after a torn mark (see C24)."
  },
  {
   "property": "C12",
   "status": "proved",
   "theorems": [
    "Growt.C12_terminates_with_room",
    "Growt.C12_full_table_diverges"
   ],
   "note": "Termination with an empty slot, and divergence without."
  },
  {
   "property": "C13",
   "status": "proved",
   "theorems": [
    "Growt.C13_full_only_when_crowded"
   ],
   "note": ""
  },
  {
   "property": "C14",
   "status": "partial",
   "theorems": [
    "Growt.C14_capacity_partial",
    "Growt.C14_fails_above_2_30",
    "Growt.C14_diverges_above_2_31"
   ],
   "note": "Holds up to 2^30 requested elements; violated above (32 bit arithmetic)."
  },
  {
   "property": "C15",
   "status": "proved",
   "theorems": [
    "Growt.C15_map_in_range",
    "Growt.C15_map_doubled",
    "Growt.C15_map_same_size"
   ],
   "note": ""
  },
  {
   "property": "C16",
   "status": "proved",
   "theorems": [
    "Growt.C16_growth_decision",
    "Growt.C16_never_shrinks"
   ],
   "note": "Double arithmetic modelled exactly for up to 2^53 slots."
  },
  {
   "property": "C17",
   "status": "proved",
   "theorems": [
    "Growt.C17_migration_preserves_contents",
    "Growt.C17_full_circular_source_is_lost",
    "Growt.migration_end"
   ],
   "note": "For every interleaving of any number of helpers. Limit shown: a full circular table is not migrated."
  },
  {
   "property": "C18",
   "status": "proved",
   "theorems": [
    "Growt.C18_tombstones_reclaimed"
   ],
   "note": ""
  },
  {
   "property": "C19",
   "status": "proved",
   "theorems": [
    "Growt.C19_schedule_independent",
    "Growt.C19_single_helper_finishes"
   ],
   "note": ""
  },
  {
   "property": "C20",
   "status": "partial",
   "theorems": [
    "Growt.C20_no_uninitialised_read",
    "Growt.C20_modified_source_partial",
    "Growt.Async.C20_torn_mark_leaves_uninitialised"
   ],
   "note": "Synchronous migrations: proved. Asynchronous migrations: proved as long as no mark is torn; otherwise violated: a table is published of which two slots were never initialised, and a lookup reads one of them."
  },
  {
   "property": "C21",
   "status": "partial",
   "theorems": [
    "Growt.C21_blocks_partition_partial",
    "Growt.C21_each_block_once",
    "Growt.C21_huge_table_loses_everything"
   ],
   "note": "Violated by the code for 2^32 or more slots (block ends computed in 32 bits); proved below."
  },
  {
   "property": "C22",
   "status": "partial",
   "theorems": [
    "Growt.C22_combinations_partial",
    "Growt.C22_circular_map_reads_uninitialised",
    "Growt.C22_counterexample_is_well_formed"
   ],
   "note": "Violated by the code for circular mapping with linear probing; proved for the three other combinations."
  },
  {
   "property": "C23",
   "status": "partial",
   "theorems": [
    "Growt.C23_growing_table_is_map_partial",
    "Growt.C23_calls_complete_linear_partial",
    "Growt.C23_calls_complete_circular_partial",
    "Growt.C23_equal_hashes_never_return",
    "Growt.C23_302_equal_hashes",
    "Growt.C23_circular_never_returns",
    "Growt.C23_growth_happens"
   ],
   "note": "Every completed sequence of calls agrees with the ideal map, never a refusal, for every hash function. Completion of every call is violated by the code (303 equal hash values; circular probing when the counter hits the threshold exactly); proved for spread hash values resp. when the threshold is not hit. Below 2^32 slots (C21)."
  },
  {
   "property": "C24",
   "status": "partial",
   "theorems": [
    "Growt.Async.C24_linearizable_partial",
    "Growt.Async.C24_linear_probing_partial",
    "Growt.Async.C24_no_wild_access_partial",
    "Growt.Async.C24_calls_continue_partial",
    "Growt.Async.C24_not_vacuous",
    "Growt.Async.C24_torn_mark_loses_element",
    "Growt.Async.C24_torn_mark_duplicates_element"
   ],
   "note": "Violated by the code: when the marking of a slot in the last run of a block fails against a concurrent write, the stale copy is migrated and an acknowledged insertion is lost. Proved: every execution without such a torn mark, within the probing limits, is linearizable."
  },
  {
   "property": "C25",
   "status": "proved",
   "theorems": [
    "Growt.Async.C25_published_complete",
    "Growt.Async.C25_block_finished_by_its_owner",
    "Growt.Async.C25_successor_fixed",
    "Growt.Async.C25_one_successor",
    "Growt.Async.C25_versions_never_decrease",
    "Growt.Async.C25_no_null_table",
    "Growt.Async.C25_executions_follow_protocol",
    "Growt.Async.C25_marks_have_successor",
    "Growt.Async.C25_help_has_successor",
    "Growt.Async.C25_refused_call_continues",
    "Growt.Async.C25_help_not_vacuous"
   ],
   "note": "All interleavings of any number of handles and migrating threads, up to the first undefined behaviour (C11, C20). The premise of help_grow in the step relation is proved to hold in every execution, also with torn marks; tables of fewer than 2^63 slots."
  },
  {
   "property": "C26",
   "status": "partial",
   "theorems": [
    "Growt.Async.C26_overtaken_waits_for_ever",
    "Growt.Async.C26_creation_can_wait_for_ever",
    "Growt.Async.C26_refresh_can_wait_for_ever",
    "Growt.Async.C26_waiting_ends_partial"
   ],
   "note": "Violated by the code: a handle that protected the table just before it was replaced waits for ever. Proved: it ends if the table it has protected is not yet overtaken."
  },
  {
   "property": "C27",
   "status": "proved",
   "theorems": [
    "Growt.Async.C27_no_access_after_reclamation",
    "Growt.Async.C27_reclaimed_once",
    "Growt.Async.C27_slots_not_reclaimed"
   ],
   "note": "All interleavings of any number of handles and migrating threads; the reclamation library is specified (protect atomic)."
  },
  {
   "property": "C28",
   "status": "partial",
   "theorems": [
    "Growt.C28_operations_exclude_migration_partial",
    "Growt.C28_moved_handle_unprotects",
    "Growt.C28_not_vacuous"
   ],
   "note": "Violated by the code when a moved-from handle is destroyed while the new handle is used; proved for every interleaving, number of threads and registration order otherwise."
  },
  {
   "property": "C29",
   "status": "partial",
   "theorems": [
    "Growt.C29_helper_reads_deleted_table",
    "Growt.C29_working_threads_partial",
    "Growt.C29_prompt_helpers_partial",
    "Growt.C29_not_vacuous"
   ],
   "note": "Violated by the code: a helper stopped between loading the table and protecting it accesses a deleted table. Proved for operations, the growing thread and copying helpers, and for executions without that window."
  },
  {
   "property": "C30",
   "status": "partial",
   "theorems": [
    "Growt.Sync.C30_linearizable_partial",
    "Growt.Sync.C30_linear_probing_partial",
    "Growt.Sync.C30_no_wild_access_partial",
    "Growt.Sync.C30_not_vacuous",
    "Growt.Sync.C30_moved_handle_loses_element"
   ],
   "note": "Violated by the code when a moved-from handle is destroyed while the new handle is in use: an inserted element is lost (C30_moved_handle_loses_element). Otherwise: all thread counts, calls and interleavings, any number of growth steps. Missing: destructors of moved-from handles (C28), helpers that would touch a deleted table do not continue (C29), tables below 2^32 slots, with circular probing a free slot in a table that is grown; counters are arbitrary."
  },
  {
   "property": "C31",
   "status": "partial",
   "theorems": [
    "Growt.C31_flags_unique_partial",
    "Growt.C31_handles_inspected_partial",
    "Growt.C31_registration_succeeds",
    "Growt.C31_257th_handle_unreported",
    "Growt.C31_moved_handle_shares_flags",
    "Growt.C31_not_vacuous"
   ],
   "note": "Violated by the code for the 257th handle and for moved-from handles; proved otherwise."
  },
  {
   "property": "C32",
   "status": "partial",
   "theorems": [
    "Growt.C32_counts_add_up",
    "Growt.C32_counts_add_up_partial",
    "Growt.C32_exact_when_flushed",
    "Growt.C32_unflushed_bounded",
    "Growt.C32_off_during_growth",
    "Growt.C32_count_can_be_huge",
    "Growt.C32_two_loads"
   ],
   "note": "Violated by the code: the two counters are read separately and a negative difference is returned as a huge number, and during growth the tombstones are subtracted late. Proved: the counters plus unflushed amounts always add up, exact when flushed."
  },
  {
   "property": "C33",
   "status": "partial",
   "theorems": [
    "Growt.C33_trigger_iff",
    "Growt.C33_growth_triggered_partial",
    "Growt.C33_never_triggered"
   ],
   "note": "Violated by the code: the counter may jump to exactly the threshold, after which growth is never triggered (proved for every capacity and number of insertions)."
  },
  {
   "property": "C34",
   "status": "partial",
   "theorems": [
    "Growt.C34_keys_storable_partial",
    "Growt.C34_legal_keys",
    "Growt.C34_key_2_63_lost",
    "Growt.C34_marked_keys_reserved",
    "Growt.layout_faithful",
    "Growt.encode_injective"
   ],
   "note": "Violated by the code for the key 2^63 (2^31) on tables without marks; proved for all other unreserved keys."
  },
  {
   "property": "C35",
   "status": "proved",
   "theorems": [
    "Growt.C35_mark_keeps_contents",
    "Growt.C35_marked_slot_refused",
    "Growt.C35_cas_fails_after_mark",
    "Growt.encode_mark"
   ],
   "note": "All words, 64 and 32 bit key layouts."
  },
  {
   "property": "C36",
   "status": "proved",
   "theorems": [
    "Growt.Heap.C36_packing",
    "Growt.Heap.C36_predicates",
    "Growt.Heap.C36_find_faithful",
    "Growt.Heap.mkSlot_represents"
   ],
   "note": "All pointers below 2^48, hashes, marks; search on packed words equals search on the abstract table."
  },
  {
   "property": "C37",
   "status": "partial",
   "theorems": [
    "Growt.Heap.C37_emplaced_never_found",
    "Growt.Heap.C37_emplace_lost",
    "Growt.Heap.C37_insert_findable_partial"
   ],
   "note": "Violated by the code for emplace on non-growing tables with heap slots; proved for insert and for emplace on growing tables."
  },
  {
   "property": "C38",
   "status": "partial",
   "theorems": [
    "Growt.HeapMem.C38_bounded",
    "Growt.HeapMem.C38_bounded_not_vacuous",
    "Growt.HeapMem.C38_async_no_early_free",
    "Growt.HeapMem.C38_sync_no_early_free",
    "Growt.HeapMem.C38_async_partial",
    "Growt.HeapMem.C38_async_not_vacuous",
    "Growt.HeapMem.C38_sync_partial",
    "Growt.HeapMem.C38_sync_not_vacuous",
    "Growt.HeapMem.C38_sync_leaks",
    "Growt.HeapMem.C38_sync_leak_happens",
    "Growt.HeapMem.C38_async_double_free"
   ],
   "note": "Proved in full for tables that do not grow. Growing tables: nothing is freed early, in every execution. Violated by the code: with synchronous growth the destructor leaks every element; with asynchronous growth a torn mark lets the destructor free an element twice. Without torn marks every element is freed exactly once."
  },
  {
   "property": "C39",
   "status": "proved",
   "theorems": [
    "Growt.C39_iteration_exactly_once",
    "Growt.C39_after_calls",
    "Growt.C39_after_concurrent"
   ],
   "note": ""
  },
  {
   "property": "C40",
   "status": "proved",
   "theorems": [
    "Growt.C40_range_exact",
    "Growt.C40_ranges_partition"
   ],
   "note": ""
  },
  {
   "property": "C41",
   "status": "partial",
   "theorems": [
    "Growt.C41_presented_is_present_partial",
    "Growt.C41_marked_tombstone_presented",
    "Growt.C41_erased_slot_presented"
   ],
   "note": "Violated by the code while a migration marks slots; proved for all concurrent executions without migration."
  },
  {
   "property": "C42",
   "status": "partial",
   "theorems": [
    "Growt.C42_increment_partial",
    "Growt.C42_increment_after_erase"
   ],
   "note": "Violated by the code (null pointer arithmetic) whenever the current element was erased and the table migrated; proved when it is still present."
  },
  {
   "property": "C43",
   "status": "partial",
   "theorems": [
    "Growt.C43_erase_terminates_partial",
    "Growt.C43_erase_never_returns",
    "Growt.C43_growing_erase_never_returns"
   ],
   "note": "Violated by the code: never returns on growing tables, and never returns on a changed 16 byte slot."
  },
  {
   "property": "C44",
   "status": "partial",
   "theorems": [
    "Growt.C44_conditional_partial",
    "Growt.C44_growing_partial",
    "Growt.C44_second_attempt_succeeds",
    "Growt.C44_after_migration"
   ],
   "note": "Violated by the code after a migration and for repeated attempts on 8 byte slots; first attempt on the same table proved."
  },
  {
   "property": "C45",
   "status": "proved",
   "theorems": [
    "Growt.C45_sequential_table_is_map"
   ],
   "note": "Circular probing (as in the property); fewer than 2^40 calls."
  },
  {
   "property": "C46",
   "status": "partial",
   "theorems": [
    "Growt.C46_erase_partial",
    "Growt.C46_erase_loses_key",
    "Growt.C46_erase_moves_key"
   ],
   "note": "Violated by the code: erase compares the raw hash value with a slot number. Proved for tables where hash values are home slots and no probe sequence wraps around."
  },
  {
   "property": "C47",
   "status": "partial",
   "theorems": [
    "Growt.Pool.C47_continues_after_migration_partial",
    "Growt.Pool.C47_continues_eventually_partial",
    "Growt.Pool.C47_no_deadlock_partial",
    "Growt.Pool.C47_not_vacuous",
    "Growt.Pool.C47_late_wake_loses_table",
    "Growt.Pool.C47_spurious_wake_loses_table",
    "Growt.Pool.C47_two_handles_lose_table",
    "Growt.Pool.C47_start_deadlock",
    "Growt.Pool.C47_any_number_of_handles",
    "Growt.Pool.C47_replaced_by_successor"
   ],
   "note": "Both halves are violated by the code, also without spurious wake-ups (four executions). Proved for one handle and executions in which no sleeping thread is woken before its counter changed."
  },
  {
   "property": "C48",
   "status": "proved",
   "theorems": [
    "Growt.C48_successful_iff",
    "Growt.C48_codes_distinct"
   ],
   "note": ""
  },
  {
   "property": "C49",
   "status": "partial",
   "theorems": [
    "Growt.C49_is_correct",
    "Growt.C49_all_always_true",
    "Growt.C49_all_wrong",
    "Growt.C49_dispatch_partial",
    "Growt.C49_deletion_only",
    "Growt.C49_seq_dispatch",
    "Growt.C49_fits_base"
   ],
   "note": "Violated by the code for deletion without growable (asynchronous migration without marks, elements freed twice) and for the query all; proved for all other modifier lists and all sizes."
  },
  {
   "property": "C50",
   "status": "partial",
   "theorems": [
    "Growt.C50_aligned_size",
    "Growt.C50_aligned_refuses_only_overflow",
    "Growt.C50_pool_size",
    "Growt.C50_at_most_one_pool",
    "Growt.C50_returns_after_pool_partial",
    "Growt.C50_objects_have_pool_partial",
    "Growt.C50_pool_stays",
    "Growt.C50_not_vacuous",
    "Growt.C50_converting_constructor_has_no_pool",
    "Growt.C50_constructor_finishes",
    "Growt.C50_failed_allocation_hangs",
    "Growt.C50_failed_allocation_occurs",
    "Growt.C50_size_one_hangs",
    "Growt.C50_size_one_occurs"
   ],
   "note": "Sizes: proved for all requests. First use: proved for all interleavings of all constructors but the converting one, which the code leaves without a pool (violation proved). Also proved: after a failed allocation, or with a pool of size one, no constructor ever returns."
  },
  {
   "property": "C51",
   "status": "proved",
   "theorems": [
    "Growt.C51_moves_transfer_once",
    "Growt.C51_move_constructor",
    "Growt.C51_moved_from_flush_adds_nothing"
   ],
   "note": ""
  },
  {
   "property": "C52",
   "status": "proved",
   "theorems": [
    "Growt.C52_update_unsafe_like_update",
    "Growt.C52_insert_or_update_unsafe_like_insert_or_update"
   ],
   "note": ""
  },
  {
   "property": "C53",
   "status": "partial",
   "theorems": [
    "Growt.Async.C53_modifications_linearizable_partial",
    "Growt.Async.C53_search_in_bounds",
    "Growt.Async.C53_search_not_vacuous",
    "Growt.Async.C53_iterator_in_bounds",
    "Growt.Async.C53_marked_copy_loses_erasure",
    "Growt.Async.C53_not_vacuous",
    "Growt.Async.C53_refreshed_iterator_erases",
    "Growt.Async.C53_erased_element_null_pointer"
   ],
   "note": "False as stated (proved): find returns iterators with marked copies, and erase_if_unchanged through such an iterator reports success while the element lives on in the new table; compare_exchange through an iterator of a replaced table uses a null pointer if the element was erased. Proved: linearizability of operations and modifications tried with unmarked copies, without torn marks, including iterators of replaced tables that search their key again; every access is in bounds in all executions."
  },
  {
   "property": "C54",
   "status": "partial",
   "theorems": [
    "Growt.C54_careful_partial",
    "Growt.C54_operation_during_migration",
    "Growt.C54_includes_sequential",
    "Growt.C54_not_vacuous"
   ],
   "note": "False as stated (proved): the store to ops_protect is a release store and the load of _table that follows may overtake it, so a thread enters an operation that the growing thread does not see, and elements are copied meanwhile. Proved: the exclusion holds in all executions with store buffers if the load in get_table and the load of _next_table in migrate wait until the flag is visible (a fence); every sequentially consistent execution is one of the executions with store buffers. Handles that are not moved (C28)."
  },
  {
   "property": "C55",
   "status": "partial",
   "theorems": [
    "Growt.Sync.C55_sync_until_growth_partial",
    "Growt.Sync.C55_sync_range_of_deleted_table",
    "Growt.Sync.C55_not_vacuous_sync",
    "Growt.Async.C55_async_until_next_table_partial",
    "Growt.Async.C55_async_range_of_deleted_table",
    "Growt.Async.C55_not_vacuous_async"
   ],
   "note": "Violated by the code with both protocols (proved): the iterator points into a table that has been deleted. Proved: with synchronised growth the table exists until the next growth step ends; with asynchronous growth until the handle loads another table at the beginning of a later call."
  },
  {
   "property": "C56",
   "status": "partial",
   "theorems": [
    "Growt.Sync.C56_sync_one_table",
    "Growt.Sync.C56_sync_two_tables",
    "Growt.Sync.C56_not_vacuous_sync",
    "Growt.Async.C56_async_reclaimable_partial",
    "Growt.Async.C56_async_destroyed_handle",
    "Growt.Async.C56_async_table_leaks",
    "Growt.Async.C56_not_vacuous_async"
   ],
   "note": "Synchronised growth: full (without destroying moved-from handles, C28). Asynchronous growth: violated by the code (proved), a destroyed handle keeps its table for ever; proved when no handle has been destroyed. The reclamation library is specified: destroying its handle does not release what the handle protects (counting_manager)."
  },
  {
   "property": "C57",
   "status": "partial",
   "theorems": [
    "Growt.Moves.C57_no_dangling_partial",
    "Growt.Moves.C57_moved_handle_grows",
    "Growt.Moves.C57_moved_handle_always",
    "Growt.Moves.C57_pool_move_reads_itself",
    "Growt.Moves.C57_pool_thread_of_destroyed_handle",
    "Growt.Moves.C57_not_vacuous"
   ],
   "note": "Violated by the code (proved): the new handle refers to the worker of its source; with the pool the move constructor moves a pointer from itself, and the thread keeps references to the source. Proved for all sequences in which no moved-from handle is destroyed (with the pool: nothing is moved)."
  },
  {
   "property": "C58",
   "status": "partial",
   "theorems": [
    "Growt.C58_freed_once_partial",
    "Growt.C58_erase_leaks"
   ],
   "note": "Violated by the code (proved): erase does not free the block of the element. Proved in full for all sequences without erase."
  },
  {
   "property": "C59",
   "status": "partial",
   "theorems": [
    "Growt.C59_addresses_stay_partial",
    "Growt.C59_growth_moves_all",
    "Growt.C59_index_overwrites_neighbour"
   ],
   "note": "Violated by the code (proved): growing copies every element into a new block and frees the old ones; an iterator dereferences the address of the slot instead of the pointer in it. Proved: calls other than erase that do not grow the table leave every element at its address."
  },
  {
   "property": "C60",
   "status": "partial",
   "theorems": [
    "Growt.SyncPool.C60_published_after_migration_partial",
    "Growt.SyncPool.C60_growth_ends_partial",
    "Growt.SyncPool.C60_no_deadlock_partial",
    "Growt.SyncPool.C60_not_vacuous",
    "Growt.SyncPool.C60_not_vacuous_grown",
    "Growt.SyncPool.C60_destroyed_handle_loses_table",
    "Growt.SyncPool.C60_deleted_table_accessed",
    "Growt.SyncPool.C60_deadlock",
    "Growt.SyncPool.C60_two_handles_lose_table",
    "Growt.SyncPool.C60_one_grower",
    "Growt.SyncPool.C60_current_not_deleted",
    "Growt.SyncPool.C60_versions_increase"
   ],
   "note": "All three parts are violated by the code without spurious wake-ups (four executions). Proved for one handle and executions in which no sleeping thread is woken before its counter changed: any number of growth steps, any interleaving, with a bound on the number of actions until the publication. For any number of handles and any wake-ups: one grower at a time, versions in order, the current table is not deleted."
  },
  {
   "property": "C61",
   "status": "proved",
   "theorems": [
    "Growt.Tsx.C61_linearizable",
    "Growt.Tsx.C61_contents",
    "Growt.Tsx.C61_in_bounds",
    "Growt.Tsx.C61_full_table_never_ends"
   ],
   "note": "Table without migration under way. The element type is not in the repository: it is assumed to behave like the markable slots; transactions are strongly isolated. The unsafe variants do not compile and are not modelled."
  },
  {
   "property": "C62",
   "status": "partial",
   "theorems": [
    "Growt.Tsx.C62_migration_partial",
    "Growt.Tsx.C62_no_uninitialised_read_partial",
    "Growt.Tsx.C62_calls_respect_migration",
    "Growt.Tsx.C62_single_helper_finishes",
    "Growt.Tsx.C62_full_block_reads_uninitialised",
    "Growt.Tsx.C62_torn_mark_loses_insertion"
   ],
   "note": "Violated by the code for a block without empty slot (no early return: uninitialised read) and for a slot behind a block that changes between load and mark (a committed insertion is lost); both are proved with concrete executions. Proved for sources in which every block has an empty slot and executions without such a torn mark, any number of helpers, all interleavings. The caller of migrate is not in the repository: blocks of 4096 slots as in estrat_async are assumed."
  },
  {
   "property": "C63",
   "status": "partial",
   "theorems": [
    "Growt.C63_slots_have_one_user_partial",
    "Growt.C63_initialisations_race"
   ],
   "note": "Violated by the code: in every migration of two blocks the helper of a block and the helper of the next one may both be about to initialise the slots over the first empty slot behind the block with plain stores (proved for every table with an empty slot in the second block). Proved: nothing but initialisations is shared, and no element is ever stored in a shared slot, so the race is harmless to the contents. Executions with torn marks (C24) are excluded."
  },
  {
   "property": "C64",
   "status": "partial",
   "theorems": [
    "Growt.TabMove.C64_tables_move_partial",
    "Growt.TabMove.C64_linear_probing_moves",
    "Growt.TabMove.C64_nothing_remains",
    "Growt.TabMove.C64_moved_from_destructor_reads_null",
    "Growt.TabMove.C64_moved_from_assignment_reads_null",
    "Growt.TabMove.C64_transactional_assignment_wrong_size",
    "Growt.TabMove.C64_transactional_self_assignment",
    "Growt.TabMove.C64_not_vacuous",
    "Growt.TabMove.C64_not_vacuous_transactional"
   ],
   "note": "Violated by the code: the mapper of a moved-from table with circular probing claims one slot, and with heap slots the destructor (or a later assignment) reads it through the null pointer, in every such program; move assignment of the transactional table leaves its old array with the size 0 in the source, which releases it with this size, and self-assignment loses the size. Proved: all programs for tables with linear probing or without heap slots, and for the others all programs that avoid these two cases."
  },
  {
   "property": "C65",
   "status": "partial",
   "theorems": [
    "Growt.Tsx.C65_positions",
    "Growt.Tsx.C65_refreshed_iteration_partial",
    "Growt.Tsx.C65_shows_the_first_element_only",
    "Growt.Tsx.C65_second_element_never_shown",
    "Growt.Tsx.C65_not_vacuous"
   ],
   "note": "Violated by the code: operator++ does not copy the new element, so the loop shows the first element at every position (proved for every table). Proved: the positions are right, and with a call of refresh() after each increment the loop shows exactly the elements of the ideal map after any concurrent execution."
  },
  {
   "property": "C66",
   "status": "proved",
   "theorems": [
    "Growt.SeqWords.C66_all_keys_but_zero",
    "Growt.SeqWords.C66_key_zero_always_present",
    "Growt.SeqWords.C66_not_vacuous",
    "Growt.SeqWords.C66_zero_not_vacuous"
   ],
   "note": "Refinement of the word level to the abstract slots for keys other than 0 (all calls, also erase), then C45. Also proved: in every state the key 0 seems to be present and cannot be inserted."
  },
  {
   "property": "C67",
   "status": "partial",
   "theorems": [
    "Growt.HeapMem.C67_x86_bounded",
    "Growt.HeapMem.C67_x86_async",
    "Growt.HeapMem.C67_x86_sync",
    "Growt.HeapMem.C67_relaxed_is_a_race",
    "Growt.HeapMem.C67_release_acquire_is_needed",
    "Growt.HeapMem.C67_release_acquire_results",
    "Growt.HeapMem.C67_x86_not_vacuous",
    "Growt.HeapMem.C67_x86_growing_not_vacuous"
   ],
   "note": "In the memory model of the language violated by the code, in every bounded table and for every key: load and compare-and-swap of the slot are relaxed. Proved: on machines with store buffers where compare-and-swap waits for them (x86), for bounded tables and both growth strategies; and in the language there is no such race if and only if the load acquires and the compare-and-swap releases."
  },
  {
   "property": "C68",
   "status": "proved",
   "theorems": [
    "Growt.Async.C68_async_writes_seen",
    "Growt.Async.C68_async_no_writes_left",
    "Growt.Async.C68_async_orders_needed",
    "Growt.Async.C68_async_code",
    "Growt.Async.C68_async_not_vacuous"
   ],
   "note": "For the orders in the code, and for all others: there is no such race if and only if the decrements of _n_helper release, its load in end_grow acquires, the exchange of _table releases, protect acquires, the exchange of next_table releases and its loads acquire."
  },
  {
   "property": "C69",
   "status": "partial",
   "theorems": [
    "Growt.Sync.C69_sync_accesses_ordered_partial",
    "Growt.Sync.C69_sync_no_accesses_left_partial",
    "Growt.Sync.C69_sync_orders_needed_partial",
    "Growt.Sync.C69_sync_code_partial",
    "Growt.Sync.C69_sync_not_vacuous"
   ],
   "note": "For the orders in the code, and for all others: there is no such race if and only if the loads of _table acquire and its exchanges release, the stores to ops_protect, mig_protect and used release, the loads of the first two and the exchange of the third acquire, the exchange of _next_table releases and its loads acquire. Missing: destruction of moved-from handles, which breaks the protocol itself (C28); and the atomic accesses interleave sequentially consistently, which the orders in the code do not ensure (C54)."
  },
  {
   "property": "C70",
   "status": "partial",
   "theorems": [
    "Growt.Words.C70_words_linearizable_partial",
    "Growt.Words.C70_words_markable",
    "Growt.Words.C70_words_are_cells",
    "Growt.Words.C70_unsafe_partial",
    "Growt.Words.C70_key_2_63_lost",
    "Growt.Words.C70_not_vacuous"
   ],
   "note": "Proved for all legal keys. Violated by the code on tables without marks for the key 2^63 (2^31): its insertion succeeds and the same thread does not find it; keys that are both erased and updated on tables without marks are excluded as in C05."
  },
  {
   "property": "C71",
   "status": "partial",
   "theorems": [
    "Growt.Words.C71_torn_loads_partial",
    "Growt.Words.C71_torn_markable",
    "Growt.Words.C71_torn_values",
    "Growt.Words.C71_torn_find",
    "Growt.Words.C71_not_vacuous",
    "Growt.Words.C71_erase_if_not_vacuous"
   ],
   "note": "Violated by the code if a load is not one access: find can show the default value for a key with which it was never stored. Proved: this is the only effect; results, keys and updates stay linearizable, and the value shown is the default one or one that the key had during the call."
  },
  {
   "property": "C72",
   "status": "partial",
   "theorems": [
    "Growt.HeapVal.C72_bounded",
    "Growt.HeapVal.C72_sync_partial",
    "Growt.HeapVal.C72_async_partial",
    "Growt.HeapVal.C72_bounded_not_vacuous",
    "Growt.HeapVal.C72_sync_not_vacuous",
    "Growt.HeapVal.C72_async_not_vacuous"
   ],
   "note": "Proved without restriction for tables of fixed size. Growing tables: for the executions of C30_linearizable_partial and C24_linearizable_partial; the code violates the property outside of them (a torn mark loses an element, C24). Calls: find, insert, update, insert_or_update and accesses through pointers; removal of heap elements does not compile."
  },
  {
   "property": "C73",
   "status": "proved",
   "theorems": [
    "Growt.Progress.C73_every_execution",
    "Growt.Progress.C73_never_blocked",
    "Growt.Progress.C73_lookup_wait_free",
    "Growt.Progress.C73_lock_free",
    "Growt.Progress.C73_total_work",
    "Growt.Progress.C73_calls_return",
    "Growt.Progress.C73_update_starves",
    "Growt.Progress.C73_not_vacuous",
    "Growt.Progress.C73_more_not_vacuous"
   ],
   "note": "For tables of fixed size. C73_update_starves shows that updates are not wait-free, so the term for the modifications of others cannot be dropped; C12_full_table_diverges shows that the empty slot is needed with circular probing."
  },
  {
   "property": "C74",
   "status": "partial",
   "theorems": [
    "Growt.C74_no_deadlock_partial",
    "Growt.C74_quiescence_partial",
    "Growt.C74_no_leak",
    "Growt.C74_growing_blocks",
    "Growt.C74_not_vacuous",
    "Growt.C74_blocks_not_vacuous"
   ],
   "note": "For executions in which helpers are prompt in the sense of C29: in others a helper reads a deleted table (proved, C29), and nothing can be said. The theorems say that the end can be reached, so every fair random scheduler reaches it; C74_growing_blocks shows that they cannot be strengthened to progress without the steps of a thread inside an operation."
  },
  {
   "property": "C75",
   "status": "partial",
   "theorems": [
    "Growt.Async.C75_no_deadlock_partial",
    "Growt.Async.C75_quiescence_partial",
    "Growt.Async.C75_helper_delays",
    "Growt.Async.C75_operation_does_not_delay",
    "Growt.Async.C75_not_vacuous",
    "Growt.Async.C75_delays_not_vacuous"
   ],
   "note": "A thread can come to rest if and only if it does not wait for an epoch that is over; such a thread waits for ever (proved, C26). The theorems say that the end can be reached; C75_helper_delays shows that they cannot be strengthened to progress without the steps of a thread that copies a block, C75_operation_does_not_delay that threads inside operations need not move, unlike in C74."
  },
  {
   "property": "C76",
   "status": "partial",
   "theorems": [
    "Growt.Wrap.C76_references_linearizable_partial",
    "Growt.Wrap.C76_references_content",
    "Growt.Wrap.C76_references_not_vacuous",
    "Growt.Wrap.C76_um_erase_violated",
    "Growt.Wrap.C76_locked_linearizable_partial",
    "Growt.Wrap.C76_locked_not_vacuous",
    "Growt.Wrap.C76_default_key_violated",
    "Growt.Wrap.C76_cuckoo_partial",
    "Growt.Wrap.C76_cuckoo_violated",
    "Growt.Wrap.C76_junction_linearizable_partial",
    "Growt.Wrap.C76_junction_not_vacuous",
    "Growt.Wrap.C76_junction_two_winners",
    "Growt.Wrap.C76_junction_lost_update",
    "Growt.Wrap.C76_junction_ignored_violated",
    "Growt.Wrap.C76_next_power_partial",
    "Growt.Wrap.C76_next_power_diverges",
    "Growt.Wrap.C76_next_cap_partial",
    "Growt.Wrap.C76_next_cap_violated",
    "Growt.Wrap.C76_move_violated"
   ],
   "note": "Holds for folly without restriction, for tbb_um without erase, for tbb_hm without the default key. Violated by the code otherwise, each case proved: libcuckoo (value 0, the answers of update and insert_or_update), junction (two concurrent changes of the same key, value 0, functions not declared compatible), the sizes above 2^31 and 2^62, moving."
  },
  {
   "property": "C77",
   "status": "partial",
   "theorems": [
    "Growt.Agg.C77_bounded",
    "Growt.Agg.C77_bounded_not_vacuous",
    "Growt.Agg.C77_sync_partial",
    "Growt.Agg.C77_sync_not_vacuous",
    "Growt.Agg.C77_async_partial",
    "Growt.Agg.C77_async_not_vacuous",
    "Growt.Agg.C77_words",
    "Growt.Agg.C77_heap_bounded",
    "Growt.Agg.C77_heap_sync_partial",
    "Growt.Agg.C77_heap_async_partial",
    "Growt.Agg.C77_tsx",
    "Growt.Agg.C77_locked_partial",
    "Growt.Agg.C77_references",
    "Growt.Agg.C77_benchmark_bounded",
    "Growt.Agg.C77_benchmark_sync_partial",
    "Growt.Agg.C77_benchmark_async_partial",
    "Growt.Agg.C77_benchmark_wraps"
   ],
   "note": "Follows from linearizability alone, so it holds wherever C02, C24, C30, C61, C70, C72 and C76 give that, with their restrictions; junction loses additions (C76). The sums of the benchmark are 32-bit numbers: with 2^32 or more additions it reports an error although the table is right (proved)."
  },
  {
   "property": "C78",
   "status": "partial",
   "theorems": [
    "Growt.Agg.C78_bounded",
    "Growt.Agg.C78_sync_partial",
    "Growt.Agg.C78_async_partial",
    "Growt.Agg.C78_words",
    "Growt.Agg.C78_tsx",
    "Growt.Agg.C78_heap_bounded",
    "Growt.Agg.C78_heap_sync_partial",
    "Growt.Agg.C78_heap_async_partial",
    "Growt.Agg.C78_locked_partial",
    "Growt.Agg.C79_bounded_not_vacuous",
    "Growt.Agg.C79_sync_not_vacuous",
    "Growt.Agg.C79_async_not_vacuous"
   ],
   "note": "Follows from linearizability, so it holds wherever C02, C24, C30, C61, C70, C72 and C76 give that, with their restrictions."
  },
  {
   "property": "C79",
   "status": "partial",
   "theorems": [
    "Growt.Agg.C79_bounded",
    "Growt.Agg.C79_sync_partial",
    "Growt.Agg.C79_async_partial",
    "Growt.Agg.C79_words",
    "Growt.Agg.C79_tsx",
    "Growt.Agg.C79_heap_bounded",
    "Growt.Agg.C79_heap_sync_partial",
    "Growt.Agg.C79_heap_async_partial",
    "Growt.Agg.C79_locked_partial",
    "Growt.Agg.C79_bounded_not_vacuous",
    "Growt.Agg.C79_sync_window_partial",
    "Growt.Agg.C79_sync_not_vacuous",
    "Growt.Agg.C79_async_window_partial",
    "Growt.Agg.C79_async_not_vacuous",
    "Growt.Agg.C79_buffers"
   ],
   "note": "Follows from linearizability and from the locality of the sequential maps, with the restrictions of C02, C24, C30, C61, C70, C72 and C76. If the window of the deletion benchmark is smaller than the number of threads, errors are counted whatever the table does (proved)."
  },
  {
   "property": "C80",
   "status": "partial",
   "theorems": [
    "Growt.Agg.C80_bounded",
    "Growt.Agg.C80_sync_partial",
    "Growt.Agg.C80_async_partial",
    "Growt.Agg.C80_words",
    "Growt.Agg.C80_tsx",
    "Growt.Agg.C80_heap_bounded",
    "Growt.Agg.C80_heap_sync_partial",
    "Growt.Agg.C80_heap_async_partial",
    "Growt.Agg.C80_locked_partial",
    "Growt.Agg.C80_sync_contention_partial",
    "Growt.Agg.C80_async_contention_partial",
    "Growt.Agg.C80_check",
    "Growt.Agg.C80_sync_false_error",
    "Growt.Agg.C80_async_false_error"
   ],
   "note": "Follows from linearizability, with the restrictions of C02, C24, C30, C61, C70, C72 and C76. The check of the benchmark counts an error for the value written by the update with index 0 although the table is right (proved)."
  },
  {
   "property": "C81",
   "status": "proved",
   "theorems": [
    "Growt.Tsx.Progress.C81_every_execution",
    "Growt.Tsx.Progress.C81_never_blocked",
    "Growt.Tsx.Progress.C81_transaction_bounded",
    "Growt.Tsx.Progress.C81_one_commit",
    "Growt.Tsx.Progress.C81_lookup_wait_free",
    "Growt.Tsx.Progress.C81_lock_free",
    "Growt.Tsx.Progress.C81_total_work",
    "Growt.Tsx.Progress.C81_calls_return",
    "Growt.Tsx.Progress.C81_update_starves",
    "Growt.Tsx.Progress.C81_not_vacuous",
    "Growt.Tsx.Progress.C81_more_not_vacuous"
   ],
   "note": "Table without migration under way; same assumptions as C61. C81_update_starves shows that the term for the modifications of others cannot be dropped; C61_full_table_never_ends shows that the empty slot is needed."
  },
  {
   "property": "C82",
   "status": "partial",
   "theorems": [
    "Growt.Agg.C82_bounded",
    "Growt.Agg.C82_sync_partial",
    "Growt.Agg.C82_async_partial",
    "Growt.Agg.C82_words",
    "Growt.Agg.C82_tsx",
    "Growt.Agg.C82_heap_bounded",
    "Growt.Agg.C82_heap_sync_partial",
    "Growt.Agg.C82_heap_async_partial",
    "Growt.Agg.C82_locked_partial",
    "Growt.Agg.C82_bounded_says",
    "Growt.Agg.C83_sync_not_vacuous",
    "Growt.Agg.C83_async_not_vacuous"
   ],
   "note": "Partial for growing tables and the locked wrapper only because the linearizability theorems used (C30, C24, C76) are. Executions meeting the hypotheses: those beside C78 and C79 for each table, and C83_sync_not_vacuous, C83_async_not_vacuous."
  },
  {
   "property": "C83",
   "status": "partial",
   "theorems": [
    "Growt.Agg.C83_reads",
    "Growt.Agg.C83_reads_outside",
    "Growt.Agg.C83_sync_partial",
    "Growt.Agg.C83_async_partial",
    "Growt.Agg.C83_sync_not_vacuous",
    "Growt.Agg.C83_async_not_vacuous"
   ],
   "note": "Partial because C30 and C24 are. C83_reads_outside shows the inputs for which the generator leaves the array."
  },
  {
   "property": "C84",
   "status": "partial",
   "theorems": [
    "Growt.Text.C84_blocks",
    "Growt.Text.C84_ends",
    "Growt.Text.C84_blocks_not_vacuous",
    "Growt.Text.C84_word_too_many",
    "Growt.Text.C84_sync_partial",
    "Growt.Text.C84_async_partial",
    "Growt.Text.C84_sync_not_vacuous",
    "Growt.Text.C84_async_not_vacuous",
    "Growt.Text.text_run"
   ],
   "note": "The statement about blocks is proved in full; partial because the statements about the table use C72, which is partial for growing tables. C84_word_too_many shows the additional push. text_run: the hypotheses on the history hold in the executions of the two not_vacuous theorems."
  },
  {
   "property": "C85",
   "status": "partial",
   "theorems": [
    "Growt.RangeSum.C85_static",
    "Growt.RangeSum.C85_work_load",
    "Growt.RangeSum.C85_dynamic",
    "Growt.RangeSum.C85_keys",
    "Growt.RangeSum.C85_sync_partial",
    "Growt.RangeSum.C85_async_partial",
    "Growt.RangeSum.C85_example_sync_partial",
    "Growt.RangeSum.C85_example_async_partial",
    "Growt.RangeSum.C85_sync_not_vacuous",
    "Growt.RangeSum.C85_async_not_vacuous",
    "Growt.RangeSum.C85_second_run"
   ],
   "note": "The sums over a table with known contents are proved in full; partial because the contents of growing tables come from C30 and C24."
  },
  {
   "property": "C86",
   "status": "partial",
   "theorems": [
    "Growt.Heap.C86_tombstone_iff",
    "Growt.Heap.C86_kept_partial",
    "Growt.Heap.C86_elements_partial",
    "Growt.Heap.C86_invisible",
    "Growt.Heap.C86_not_vacuous"
   ],
   "note": "Violated by the code for an element at the address 2^32 whose key has the fingerprint 0: its word is the one of the tombstone. Proved for all other elements."
  },
  {
   "property": "C87",
   "status": "partial",
   "theorems": [
    "Growt.Tsx.Progress.C87_capacity_partial",
    "Growt.Tsx.Progress.C87_diverges",
    "Growt.Tsx.Progress.C87_room",
    "Growt.Tsx.Progress.C87_made_for",
    "Growt.Tsx.Progress.C87_not_vacuous"
   ],
   "note": "Requests above 2^30: the constructor does not return (C87_diverges). Everything else is proved in full."
  },
  {
   "property": "C88",
   "status": "partial",
   "theorems": [
    "Growt.SeqTable.C88_size_partial",
    "Growt.SeqTable.C88_erased_keys_count",
    "Growt.SeqTable.C88_not_vacuous"
   ],
   "note": "Violated by the code: erase does not decrement the element counter, so inserting and erasing one key m times leaves an empty table of more than 1.5 m slots. Proved in full for all sequences without erase, with circular probing."
  },
  {
   "property": "C89",
   "status": "partial",
   "theorems": [
    "Growt.SeqTable.C89_linear_probing_partial",
    "Growt.SeqTable.C89_few_keys_partial",
    "Growt.SeqTable.C89_leaves_allocation",
    "Growt.SeqTable.C89_not_vacuous"
   ],
   "note": "Violated by the code: 1025 keys with the largest hash value fill the end of the table without growing it, and the next search reads behind the allocation. Proved for all sequences without erase whose keys leave the last slot free, in particular for at most 1024 different keys and any hash function."
  },
  {
   "property": "C90",
   "status": "partial",
   "theorems": [
    "Growt.Agg.C90_keys",
    "Growt.Agg.C90_other_keys",
    "Growt.Agg.C90_sync_partial",
    "Growt.Agg.C90_async_partial",
    "Growt.Agg.C90_false_error",
    "Growt.Agg.C90_not_vacuous"
   ],
   "note": "Violated for more than 1648476870 elements: find_unsucc then finds an element and compares products that were not reduced modulo 2^62, so a correct table is reported as wrong. Up to that number proved, for the executions covered by C30 and C24."
  },
  {
   "property": "C91",
   "status": "partial",
   "theorems": [
    "Growt.FunTest.C91_ideal",
    "Growt.FunTest.C91_first_stage_fails",
    "Growt.FunTest.C91_other_stages_partial",
    "Growt.FunTest.C91_others_report_success",
    "Growt.FunTest.C91_not_vacuous"
   ],
   "note": "Violated: the first stage dereferences the iterator of each successful insert, which shows the empty slot (C09), so it counts n errors on every growing table. The other 17 stages count none; with an ideal map no stage does."
  },
  {
   "property": "C92",
   "status": "partial",
   "theorems": [
    "Growt.Agg.C92_sync_partial",
    "Growt.Agg.C92_async_partial",
    "Growt.Agg.C92_false_error",
    "Growt.Agg.C92_lost_undefined",
    "Growt.Agg.C92_not_vacuous"
   ],
   "note": "Up to 2^32 indices and for all executions covered by C30 and C24: no check counts an error or is undefined. Sharp: with more than 2^32 indices the value of index 2^32 is that of index 0 and find_succ counts an error on a correct table. On a table that loses an element find_succ would dereference end() instead of counting an error."
  },
  {
   "property": "C93",
   "status": "partial",
   "theorems": [
    "Growt.Agg.C93_sync_partial",
    "Growt.Agg.C93_async_partial",
    "Growt.Agg.C93_no_errors",
    "Growt.Agg.C93_not_vacuous"
   ],
   "note": "For all executions covered by C30 and C24. Missing: the executions excluded there."
  },
  {
   "property": "C94",
   "status": "partial",
   "theorems": [
    "Growt.Agg.C94_sync_partial",
    "Growt.Agg.C94_async_partial",
    "Growt.Agg.C94_loop",
    "Growt.Agg.C94_not_vacuous"
   ],
   "note": "For all executions covered by C30 and C24. Missing: the executions excluded there; that the waiting loops end."
  },
  {
   "property": "C95",
   "status": "proved",
   "theorems": [
    "Growt.Words.C95_find_tombstone",
    "Growt.Words.C95_erase_tombstone",
    "Growt.Words.C95_insert_tombstone",
    "Growt.Words.C95_update_tombstone",
    "Growt.Words.C95_find_zero",
    "Growt.Words.C95_zero_lost",
    "Growt.Words.C95_calls_succeed",
    "Growt.Words.C95_erased_twice",
    "Growt.Words.C95_ghost",
    "Growt.Words.C95_not_vacuous",
    "Growt.Words.C95_calls_not_vacuous"
   ],
   "note": "The claim describes what the code does; that the ideal map is not met on these keys is proved by executions (zero_lost, erased_twice, ghost). For the bounded table with inline slots."
  },
  {
   "property": "C96",
   "status": "proved",
   "theorems": [
    "Growt.Words.C96_blocked",
    "Growt.Words.C96_refused",
    "Growt.Words.C96_marked_key",
    "Growt.Words.C96_not_erased",
    "Growt.Words.C96_not_vacuous"
   ],
   "note": "The claim describes what the code does with keys outside the documented range; that the ideal map is not met is proved by an execution (not_erased). For the bounded table with inline slots; the loops of the growing tables around the refused calls are not part of it."
  }
 ]
}