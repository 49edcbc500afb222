{
 "claims": [
  {
   "property": "C01",
   "status": "partial",
   "theorems": [
    "Fullock.Props.C01_not_full",
    "Fullock.Props.C01_exclusion_partial",
    "Fullock.Props.C02_exclusion_partial",
    "Fullock.Props.C72_file_exclusion_partial"
   ],
   "note": "Refuted for partially overlapping ranges; proved for ranges pairwise equal or disjoint, and for clustered ranges."
  },
  {
   "property": "C02",
   "status": "partial",
   "theorems": [
    "Fullock.Props.C02_not_full",
    "Fullock.Props.C02_exclusion_partial",
    "Fullock.Props.C01_exclusion_partial"
   ],
   "note": "Refuted when a thread dies between restoring the lock word and clearing its flag; proved with all deaths outside that window."
  },
  {
   "property": "C03",
   "status": "proved",
   "theorems": [
    "Fullock.Props.C03_readers_share",
    "Fullock.Props.C03_waiter_granted"
   ],
   "note": "Other threads idle or waiting; ranges clustered; deaths outside the windows."
  },
  {
   "property": "C04",
   "status": "partial",
   "theorems": [
    "Fullock.Props.C04_not_full",
    "Fullock.Props.C04_unlock_partial",
    "Fullock.Props.C04_unlock_exact_partial"
   ],
   "note": "Refuted for partially overlapping ranges; proved for clustered and separate ranges."
  },
  {
   "property": "C05",
   "status": "partial",
   "theorems": [
    "Fullock.Props.C05_not_full",
    "Fullock.Props.C05_unlock_refused_partial",
    "Fullock.Props.C05_unlock_refused_clustered_partial"
   ],
   "note": "Unlock of an overlapping different range releases the other lock; proved when the caller holds no overlapping range."
  },
  {
   "property": "C06",
   "status": "proved",
   "theorems": [
    "Fullock.Props.C06_try_truthful"
   ],
   "note": ""
  },
  {
   "property": "C07",
   "status": "partial",
   "theorems": [
    "Fullock.Props.C07_not_full",
    "Fullock.Props.C07_try_no_trace_partial",
    "Fullock.Props.C07_timed_no_trace_partial"
   ],
   "note": "ENOLCK leaves a protected range record; EBUSY and ETIMEDOUT leave no trace."
  },
  {
   "property": "C08",
   "status": "partial",
   "theorems": [
    "Fullock.Props.C08_not_full",
    "Fullock.Props.C08_never_twice",
    "Fullock.Props.C08_conserved_partial",
    "Fullock.Props.C08_ranges_conserved_partial",
    "Fullock.Props.C08_enolck_only_when_empty"
   ],
   "note": "Never twice: always. File and locker records conserved; range records leak in the default mode (C08_not_full) and are conserved when unlock keeps file records."
  },
  {
   "property": "C09",
   "status": "partial",
   "theorems": [
    "Fullock.Props.C09_not_full",
    "Fullock.Props.C09_islocked_partial",
    "Fullock.Props.C09_locked_is_seen"
   ],
   "note": "The range is ignored."
  },
  {
   "property": "C10",
   "status": "proved",
   "theorems": [
    "Fullock.Props.C10_other_files_untouched",
    "Fullock.Props.C10_records_apart",
    "Fullock.Props.C10_other_files_do_not_block",
    "Fullock.Props.C10_same_file_same_lock"
   ],
   "note": ""
  },
  {
   "property": "C11",
   "status": "proved",
   "theorems": [
    "Fullock.Props.C11_name_space"
   ],
   "note": ""
  },
  {
   "property": "C12",
   "status": "proved",
   "theorems": [
    "Fullock.Props.C12_sweep_releases_dead",
    "Fullock.Props.C12_waiter_releases_dead"
   ],
   "note": ""
  },
  {
   "property": "C13",
   "status": "proved",
   "theorems": [
    "Fullock.Props.C13_live_never_robbed",
    "Fullock.Props.C13_lock_only_by_request",
    "Fullock.Props.C13_idle_holder_keeps"
   ],
   "note": ""
  },
  {
   "property": "C14",
   "status": "partial",
   "theorems": [
    "Fullock.Props.C14_not_full",
    "Fullock.Props.C14_thread_end_partial"
   ],
   "note": "A holder with a real descriptor is looked up by process only."
  },
  {
   "property": "C15",
   "status": "partial",
   "theorems": [
    "Fullock.Props.C15_not_full",
    "Fullock.Props.C15_recovered_partial",
    "Fullock.Props.C15_waiter_recovered_partial"
   ],
   "note": "Refuted for a death between the successful attempt and set_lock; proved for deaths outside the three windows."
  },
  {
   "property": "C16",
   "status": "proved",
   "theorems": [
    "Fullock.Props.C16_waiter_records",
    "Fullock.Props.C16_holder_records",
    "Fullock.Props.C16_holder_records_stay"
   ],
   "note": ""
  },
  {
   "property": "C17",
   "status": "partial",
   "theorems": [
    "Fullock.Props.C17_not_full",
    "Fullock.Props.C17_word_partial",
    "Fullock.Props.C17_word_covers",
    "Fullock.Props.C17_word_bounded",
    "Fullock.Props.C17_counted_are_holders",
    "Fullock.Props.C17_word_moves",
    "Fullock.Props.C17_word_floor",
    "Fullock.Props.C17_unlock_word"
   ],
   "note": "Refuted with deaths inside the windows."
  },
  {
   "property": "C18",
   "status": "partial",
   "theorems": [
    "Fullock.Props.C18_not_full",
    "Fullock.Props.C18_exclusion_partial",
    "Fullock.Props.C18_no_wait",
    "Fullock.Props.C18_no_death",
    "Fullock.Props.C18_word",
    "Fullock.Props.C71_exclusion_partial",
    "Fullock.Props.C71_exclusion_no_wait",
    "Fullock.Props.C72_mutex_exclusion_partial",
    "Fullock.Props.C72_mutex_exclusion_no_wait"
   ],
   "note": "Refuted when an owner enters a condition wait, releases the mutex and dies while a dead-owner check has read it as the owner; proved for all other deaths."
  },
  {
   "property": "C19",
   "status": "proved",
   "theorems": [
    "Fullock.Props.C19_others",
    "Fullock.Props.C19_perm",
    "Fullock.Props.C19_never",
    "Fullock.Props.C19_unlocked",
    "Fullock.Props.C19_owner"
   ],
   "note": ""
  },
  {
   "property": "C20",
   "status": "partial",
   "theorems": [
    "Fullock.Props.C20_not_full",
    "Fullock.Props.C20_stolen",
    "Fullock.Props.C20_relock_partial",
    "Fullock.Props.C20_never_blocks"
   ],
   "note": "One unlock releases any depth (C19_owner); relocking never blocks."
  },
  {
   "property": "C21",
   "status": "partial",
   "theorems": [
    "Fullock.Props.C21_not_full",
    "Fullock.Props.C21_sweep_partial",
    "Fullock.Props.C21_waiter",
    "Fullock.Props.C21_live_partial"
   ],
   "note": "Dead owners are always recovered; that live owners are not touched is refuted in the window of C18."
  },
  {
   "property": "C22",
   "status": "proved",
   "theorems": [
    "Fullock.Props.C22_names",
    "Fullock.Props.C22_record_identity",
    "Fullock.Props.C22_lookup_keeps_records"
   ],
   "note": ""
  },
  {
   "property": "C23",
   "status": "proved",
   "theorems": [
    "Fullock.Props.C23_capacity"
   ],
   "note": ""
  },
  {
   "property": "C24",
   "status": "proved",
   "theorems": [
    "Fullock.Props.C24_failed_request",
    "Fullock.Props.C24_trylock",
    "Fullock.Props.C24_timedlock",
    "Fullock.Props.C24_block"
   ],
   "note": "C24_failed_request_partial is a stronger statement (no single step changes a word) outside the window of C18."
  },
  {
   "property": "C25",
   "status": "partial",
   "theorems": [
    "Fullock.Props.C25_not_full",
    "Fullock.Props.C25_zero_partial",
    "Fullock.Props.C25_untimed",
    "Fullock.Props.C25_exclusive"
   ],
   "note": "Refuted: a timed wait can return ETIMEDOUT without the mutex. Proved for result 0 of every wait and for the untimed wait."
  },
  {
   "property": "C26",
   "status": "proved",
   "theorems": [
    "Fullock.Props.C26_chosen",
    "Fullock.Props.C26_no_lost_wakeup",
    "Fullock.Props.C26_leaves",
    "Fullock.Props.C26_kept",
    "Fullock.Props.C26_undisciplined"
   ],
   "note": "The window of C18 is excluded by the discipline, as in it exclusion itself fails."
  },
  {
   "property": "C27",
   "status": "proved",
   "theorems": [
    "Fullock.Props.C27_signal",
    "Fullock.Props.C27_broadcast",
    "Fullock.Props.C27_queue",
    "Fullock.Props.C27_stamp",
    "Fullock.Props.C27_signal_concurrent",
    "Fullock.Props.C27_broadcast_concurrent",
    "Fullock.Props.C27_only_signals"
   ],
   "note": ""
  },
  {
   "property": "C28",
   "status": "proved",
   "theorems": [
    "Fullock.Props.C28_no_waiter",
    "Fullock.Props.C28_unknown",
    "Fullock.Props.C28_not_stored"
   ],
   "note": ""
  },
  {
   "property": "C29",
   "status": "partial",
   "theorems": [
    "Fullock.Props.C29_not_full",
    "Fullock.Props.C29_timed_out",
    "Fullock.Props.C29_partial"
   ],
   "note": "Refuted by a dead or timed-out older waiter; proved when all listed, not woken waiters are alive and blocked."
  },
  {
   "property": "C30",
   "status": "partial",
   "theorems": [
    "Fullock.Props.C30_not_full",
    "Fullock.Props.C30_never_twice",
    "Fullock.Props.C30_accounted",
    "Fullock.Props.C30_returned_partial",
    "Fullock.Props.C30_only_dead",
    "Fullock.Props.C30_sweep",
    "Fullock.Props.C30_enolck"
   ],
   "note": "Refuted by a death between taking and listing a record; proved for all other histories."
  },
  {
   "property": "C31",
   "status": "proved",
   "theorems": [
    "Fullock.Props.C31_timeout_never_early",
    "Fullock.Props.C31_result_meaning"
   ],
   "note": "All clock readings and timeouts."
  },
  {
   "property": "C32",
   "status": "partial",
   "theorems": [
    "Fullock.Props.C32_not_full",
    "Fullock.Props.C32_timeout_exact_partial",
    "Fullock.Props.C32_timeout_first_partial"
   ],
   "note": "The subtraction of timespecs borrows the carry twice; the call can give up one second late in that case. C32_not_full refutes the full statement; the partial theorems give the exact delay."
  },
  {
   "property": "C33",
   "status": "proved",
   "theorems": [
    "Fullock.Props.C33_timeout_meaning",
    "Fullock.Props.C33_negative_timeout_immediate",
    "Fullock.Props.C33_blocking_waits",
    "Fullock.Props.C33_blocking_never_gives_up"
   ],
   "note": ""
  },
  {
   "property": "C34",
   "status": "proved",
   "theorems": [
    "Fullock.Props.C34_exclusive",
    "Fullock.Props.C34_not_stolen_from_live",
    "Fullock.Props.C34_atomic_view",
    "Fullock.Props.C34_unlock_not_from_live"
   ],
   "note": ""
  },
  {
   "property": "C35",
   "status": "proved",
   "theorems": [
    "Fullock.Props.C35_recovered",
    "Fullock.Props.C35_free",
    "Fullock.Props.C35_waits_for_live",
    "Fullock.Props.C35_patience",
    "Fullock.Props.C35_unlock_any"
   ],
   "note": ""
  },
  {
   "property": "C36",
   "status": "proved",
   "theorems": [
    "Fullock.Props.C36_table_lock_returned",
    "Fullock.Props.C36_one_inside",
    "Fullock.Props.C36_tables_changed_inside"
   ],
   "note": ""
  },
  {
   "property": "C37",
   "status": "proved",
   "theorems": [
    "Fullock.Props.C37_C38_lists_are_sequences",
    "Fullock.Props.C37_retrieve_result",
    "Fullock.Props.C37_cutoff_result",
    "Fullock.Props.C37_frame",
    "Fullock.Props.C37_find",
    "Fullock.Props.C37_initialize"
   ],
   "note": ""
  },
  {
   "property": "C38",
   "status": "proved",
   "theorems": [
    "Fullock.Props.C37_C38_lists_are_sequences",
    "Fullock.Props.C38_crash_loses_at_most_moved"
   ],
   "note": ""
  },
  {
   "property": "C39",
   "status": "proved",
   "theorems": [
    "Fullock.Props.C39_position_independent",
    "Fullock.Props.C39_references_portable"
   ],
   "note": ""
  },
  {
   "property": "C40",
   "status": "partial",
   "theorems": [
    "Fullock.Props.C40_areas_partial",
    "Fullock.Props.C40_memory_partial",
    "Fullock.Props.C40_word",
    "Fullock.Props.C40_succeeds",
    "Fullock.Props.C40_fails",
    "Fullock.Props.C40_zero",
    "Fullock.Props.C40_not_full",
    "Fullock.Props.C40_then_histories_partial"
   ],
   "note": "Refuted for the waiter counts above the limit that are accepted (wrong guard); proved for all counts within the limits."
  },
  {
   "property": "C41",
   "status": "partial",
   "theorems": [
    "Fullock.Props.C41_not_full",
    "Fullock.Props.C41_partial",
    "Fullock.Props.C41_frame",
    "Fullock.Props.C41_one_initialiser"
   ],
   "note": "Refuted for processes attached through fork (no record lock); proved for all processes that attached themselves, in every history."
  },
  {
   "property": "C42",
   "status": "partial",
   "theorems": [
    "Fullock.Props.C42_not_full",
    "Fullock.Props.C42_partial",
    "Fullock.Props.C42_version",
    "Fullock.Props.C42_refused"
   ],
   "note": "Refuted when an initialiser dies between the two lock requests of another; proved when initialisations complete; the version check holds in every history."
  },
  {
   "property": "C43",
   "status": "proved",
   "theorems": [
    "Fullock.Props.C43_limit",
    "Fullock.Props.C43_own_item",
    "Fullock.Props.C43_loop_setter",
    "Fullock.Props.C43_lock_calls"
   ],
   "note": ""
  },
  {
   "property": "C44",
   "status": "partial",
   "theorems": [
    "Fullock.Props.C44_not_full",
    "Fullock.Props.C44_refused",
    "Fullock.Props.C44_default_kept",
    "Fullock.Props.C44_check_partial",
    "Fullock.Props.C44_capacity_partial",
    "Fullock.Props.C44_path",
    "Fullock.Props.C44_modes",
    "Fullock.Props.C44_failed"
   ],
   "note": "The check of the waiter count is guarded by the locker count (accepts bad, refuses good counts); the condition and waiter counts are not reset to their defaults. Proved outside these two."
  },
  {
   "property": "C45",
   "status": "partial",
   "theorems": [
    "Fullock.Props.C45_words",
    "Fullock.Props.C45_limits",
    "Fullock.Props.C45_unset",
    "Fullock.Props.C45_count",
    "Fullock.Props.C45_size",
    "Fullock.Props.C45_count_text",
    "Fullock.Props.C45_loop",
    "Fullock.Props.C45_umask",
    "Fullock.Props.C45_long",
    "Fullock.Props.C45_not_full",
    "Fullock.Props.C45_umask_word",
    "Fullock.Props.C45_file",
    "Fullock.Props.C45_dir",
    "Fullock.Props.C45_dir_unmade",
    "Fullock.Props.C45_default_dir"
   ],
   "note": "Refuted for numbers of 2^31 and more (wrap modulo 2^32) and for words in FLCKUMASK (taken as 0); proved for the other forms of values."
  },
  {
   "property": "C46",
   "status": "partial",
   "theorems": [
    "Fullock.Props.C46_unattached",
    "Fullock.Props.C46_retry",
    "Fullock.Props.C46_not_full",
    "Fullock.Props.C46_bad_descriptor_granted",
    "Fullock.Props.C46_attached_partial",
    "Fullock.Props.C46_null_name",
    "Fullock.Props.C46_retry_needs_auto"
   ],
   "note": "Refuted for bad descriptors: the mode decides the answer even when attached (0 in the default mode)."
  },
  {
   "property": "C47",
   "status": "partial",
   "theorems": [
    "Fullock.Props.C47_pwrite",
    "Fullock.Props.C47_pwrite_ends",
    "Fullock.Props.C47_pwrite_zero",
    "Fullock.Props.C47_fill_zero",
    "Fullock.Props.C47_fill_zero_ends",
    "Fullock.Props.C47_pread",
    "Fullock.Props.C47_pread_ends",
    "Fullock.Props.C47_not_full",
    "Fullock.Props.C47_read_partial"
   ],
   "note": "Refuted for flck_read on EAGAIN (returns an uninitialised buffer as data); the other helpers are proved in full."
  },
  {
   "property": "C48",
   "status": "partial",
   "theorems": [
    "Fullock.Props.C48_resolves",
    "Fullock.Props.C48_components",
    "Fullock.Props.C48_not_full",
    "Fullock.Props.C48_not_root",
    "Fullock.Props.C48_escape",
    "Fullock.Props.C48_normal_partial",
    "Fullock.Props.C48_empty",
    "Fullock.Props.C48_idempotent"
   ],
   "note": "Refuted: a path above the root is undefined behaviour (the wrong list is tested for emptiness), a missing working directory too; a trailing slash stays."
  },
  {
   "property": "C49",
   "status": "proved",
   "theorems": [
    "Fullock.Props.C49_identity"
   ],
   "note": ""
  },
  {
   "property": "C50",
   "status": "partial",
   "theorems": [
    "Fullock.Props.C50_not_full",
    "Fullock.Props.C50_cache_transparent_partial",
    "Fullock.Props.C50_sweep_never_wrongly_dead"
   ],
   "note": "Cache key collision at fd = -1."
  },
  {
   "property": "C51",
   "status": "partial",
   "theorems": [
    "Fullock.Props.C51_not_full",
    "Fullock.Props.C51_identity_partial",
    "Fullock.Props.C51_no_key",
    "Fullock.Props.C51_cache"
   ],
   "note": "After fork the cached tid is stale; the full statement is refuted."
  },
  {
   "property": "C52",
   "status": "partial",
   "theorems": [
    "Fullock.Props.C52_partial",
    "Fullock.Props.C52_succeeds",
    "Fullock.Props.C52_not_full",
    "Fullock.Props.C52_zero_length",
    "Fullock.Props.C52_failed_upgrade",
    "Fullock.Props.C52_failed_release"
   ],
   "note": "Every call returns, and succeeds if the segment calls do, for ranges of positive length that are pairwise equal or disjoint, when segment calls fail only while no other object is locked on the range to be write-locked. As stated the property is false: zero length ranges, a failed write lock after taking over readers, a failed release of a reader."
  },
  {
   "property": "C53",
   "status": "partial",
   "theorems": [
    "Fullock.Props.C53_held_partial",
    "Fullock.Props.C53_needed_partial",
    "Fullock.Props.C53_released_partial",
    "Fullock.Props.C53_once_partial",
    "Fullock.Props.C53_frame_partial",
    "Fullock.Props.C53_not_full",
    "Fullock.Props.C53_overlap_unlock"
   ],
   "note": "Proved against the knowledge a user has from calls and results, for ranges pairwise equal or disjoint and of positive length. False for partially overlapping ranges."
  },
  {
   "property": "C54",
   "status": "partial",
   "theorems": [
    "Fullock.Props.C54_not_full",
    "Fullock.Props.C54_partial",
    "Fullock.Props.C54_exit_partial",
    "Fullock.Props.C54_no_sweep_partial",
    "Fullock.Props.C54_results_partial",
    "Fullock.Props.C54_ends_only_when_told",
    "Fullock.Props.C54_calls",
    "Fullock.Props.C54_worker"
   ],
   "note": "Refuted for concurrent control calls (Run overwrites an exit request); proved for calls made one at a time, with any behaviour of the worker."
  },
  {
   "property": "C55",
   "status": "proved",
   "theorems": [
    "Fullock.Props.C55_granted_in_nine_steps",
    "Fullock.Props.C55_mutex",
    "Fullock.Props.C55_mutex_new",
    "Fullock.Props.C55_mutex_full"
   ],
   "note": ""
  },
  {
   "property": "C56",
   "status": "proved",
   "theorems": [
    "Fullock.Props.C56_trim",
    "Fullock.Props.C56_one_side",
    "Fullock.Props.C56_bump",
    "Fullock.Props.C56_bump_cycle",
    "Fullock.Props.C56_filter",
    "Fullock.Props.C56_env"
   ],
   "note": ""
  },
  {
   "property": "C57",
   "status": "partial",
   "theorems": [
    "Fullock.Props.C57_not_full",
    "Fullock.Props.C57_crash_corrupts",
    "Fullock.Props.C57_crash_hands_out_listed",
    "Fullock.Props.C57_bulk_return_complete"
   ],
   "note": "The complete run is correct; every death between the first returned record and the last write leaves a record in two lists."
  },
  {
   "property": "C58",
   "status": "partial",
   "theorems": [
    "Fullock.Props.C58_frame",
    "Fullock.Props.C58_not_full",
    "Fullock.Props.C58_creates_partial",
    "Fullock.Props.C58_failure"
   ],
   "note": "Refuted for sockets and block devices (the S_IFDIR bit is part of their type); proved otherwise."
  },
  {
   "property": "C59",
   "status": "partial",
   "theorems": [
    "Fullock.Props.C59_streams",
    "Fullock.Props.C59_not_full",
    "Fullock.Props.C59_no_use_after_close_partial",
    "Fullock.Props.C59_set",
    "Fullock.Props.C59_load",
    "Fullock.Props.C59_calls"
   ],
   "note": "Refuted when fclose fails; proved when closing succeeds."
  },
  {
   "property": "C60",
   "status": "partial",
   "theorems": [
    "Fullock.Props.C60_partial",
    "Fullock.Props.C60_fail",
    "Fullock.Props.C60_not_full"
   ],
   "note": "Refuted when the read would block (uninitialised buffer is scanned); proved for delivered batches."
  },
  {
   "property": "C61",
   "status": "partial",
   "theorems": [
    "Fullock.Props.C61_not_full",
    "Fullock.Props.C61_child",
    "Fullock.Props.C61_partial"
   ],
   "note": "Refuted after a second initialisation (the fork handler is registered again); proved for histories with one initialisation."
  },
  {
   "property": "C62",
   "status": "partial",
   "theorems": [
    "Fullock.Props.C62_not_full",
    "Fullock.Props.C62_partial",
    "Fullock.Props.C62_alone",
    "Fullock.Props.C62_patience"
   ],
   "note": "Refuted for a creator that is overtaken before it locks the file; proved while another process is attached and for a lone process."
  },
  {
   "property": "C63",
   "status": "partial",
   "theorems": [
    "Fullock.Props.C63_partial",
    "Fullock.Props.C63_not_full"
   ],
   "note": "Proved for histories without conversion of the only lock of a range; conversions use the table without its lock."
  },
  {
   "property": "C64",
   "status": "partial",
   "theorems": [
    "Fullock.Props.C64_not_full",
    "Fullock.Props.C64_null_is_empty",
    "Fullock.Props.C64_partial"
   ],
   "note": "A null mutex name of a condition wait is taken as the empty name; all other null names are refused."
  },
  {
   "property": "C65",
   "status": "proved",
   "theorems": [
    "Fullock.Props.C65_range_requests",
    "Fullock.Props.C65_range_others",
    "Fullock.Props.C65_name_requests",
    "Fullock.Props.C65_timed_extremes",
    "Fullock.Props.C65_reaches",
    "Fullock.Props.C65_errno"
   ],
   "note": ""
  },
  {
   "property": "C66",
   "status": "proved",
   "theorems": [
    "Fullock.Props.C66_check_count",
    "Fullock.Props.C66_setters"
   ],
   "note": ""
  },
  {
   "property": "C67",
   "status": "partial",
   "theorems": [
    "Fullock.Props.C67_not_full",
    "Fullock.Props.C67_partial",
    "Fullock.Props.C67_progress_partial",
    "Fullock.Props.C67_exclusion_partial"
   ],
   "note": "Simulation of the machine on memory cells by the machine on lists and back, for every history in which nobody dies in the middle of the bulk return of the ranges of a file (where the statement is false: C67_not_full). Exclusion additionally under the conditions of C01 and C02."
  },
  {
   "property": "C68",
   "status": "proved",
   "theorems": [
    "Fullock.Props.C68_sweep",
    "Fullock.Props.C68_waiters",
    "Fullock.Props.C68_anywhere"
   ],
   "note": ""
  },
  {
   "property": "C69",
   "status": "proved",
   "theorems": [
    "Fullock.Props.C69_exclusion",
    "Fullock.Props.C69_results",
    "Fullock.Props.C69_atomic",
    "Fullock.Props.C69_failure",
    "Fullock.Props.C69_no_interference",
    "Fullock.Props.C69_unlock_progress",
    "Fullock.Props.C69_reader_progress",
    "Fullock.Props.C69_limited",
    "Fullock.Props.C69_order_needed"
   ],
   "note": ""
  },
  {
   "property": "C70",
   "status": "partial",
   "theorems": [
    "Fullock.Props.C70_not_full",
    "Fullock.Props.C70_upgrade_gap",
    "Fullock.Props.C70_alone_partial",
    "Fullock.Props.C70_held_partial",
    "Fullock.Props.C70_exclusion_partial",
    "Fullock.Props.C70_released_partial",
    "Fullock.Props.C70_no_race_partial",
    "Fullock.Props.C70_own_objects_partial",
    "Fullock.Props.C70_progress_partial",
    "Fullock.Props.C70_bounded_partial",
    "Fullock.Props.C70_refused_stuck"
   ],
   "note": "Every interleaving of the instructions of the calls of any number of threads, under the conditions of C52 and C63 (ranges equal or disjoint, no only lock of a range turned into the other kind). While a thread turns a read lock into a write lock with a second object, its read lock is given back before the write lock is granted: another thread can write (C70_not_full). Proved for objects whose threads are not in a call on that range."
  },
  {
   "property": "C71",
   "status": "proved",
   "theorems": [
    "Fullock.Props.C71_intact",
    "Fullock.Props.C71_refines",
    "Fullock.Props.C71_progress"
   ],
   "note": "C71_exclusion_partial and C71_exclusion_no_wait carry C18 over to the segment; they are listed there."
  },
  {
   "property": "C72",
   "status": "proved",
   "theorems": [
    "Fullock.Props.C72_typed",
    "Fullock.Props.C72_one_call",
    "Fullock.Props.C72_events",
    "Fullock.Props.C72_mutexes",
    "Fullock.Props.C72_progress",
    "Fullock.Props.C72_files",
    "Fullock.Props.C72_files_apart",
    "Fullock.Props.C72_mutexes_apart",
    "Fullock.Props.C72_files_partial"
   ],
   "note": "C72_files_partial links the file locks of the segment to the model on lists as C67_partial does, with the hypothesis of C67_partial. C72_file_exclusion_partial, C72_mutex_exclusion_partial and C72_mutex_exclusion_no_wait carry C01 and C18 over; they are listed there."
  },
  {
   "property": "C73",
   "status": "partial",
   "theorems": [
    "Fullock.Props.C73_table_not_full",
    "Fullock.Props.C73_table_partial",
    "Fullock.Props.C73_range_not_full",
    "Fullock.Props.C73_range_limit_not_full",
    "Fullock.Props.C73_range_partial",
    "Fullock.Props.C73_word_partial",
    "Fullock.Props.C73_mutex_not_full",
    "Fullock.Props.C73_mutex_limit_not_full",
    "Fullock.Props.C73_mutex_partial",
    "Fullock.Props.C73_nest_depth",
    "Fullock.Props.C73_nest_not_full",
    "Fullock.Props.C73_nest_poison",
    "Fullock.Props.C73_nest_partial"
   ],
   "note": "False as stated: the int counters of the waiting loops overflow after 2^31 rounds (no limit, or a limit of INT_MAX, which the setting call accepts), and the owner of a mutex is refused from lock number 2^31 + 1 on. Proved: no overflow in shorter waits and executions, for every interleaving, and with every other limit."
  },
  {
   "property": "C74",
   "status": "partial",
   "theorems": [
    "Fullock.Props.C74_table_not_full",
    "Fullock.Props.C74_table_partial",
    "Fullock.Props.C74_recover_not_full",
    "Fullock.Props.C74_table_inherits",
    "Fullock.Props.C74_exclusion_partial",
    "Fullock.Props.C74_stays",
    "Fullock.Props.C74_never_released",
    "Fullock.Props.C74_release_not_full",
    "Fullock.Props.C74_idle_deaths",
    "Fullock.Props.C74_births",
    "Fullock.Props.C74_born_tables",
    "Fullock.Props.C74_unlock_inherited",
    "Fullock.Props.C74_unlock_not_full",
    "Fullock.Props.C74_mutex_exclusion",
    "Fullock.Props.C74_mutex_inherited",
    "Fullock.Props.C74_mutex_freed",
    "Fullock.Props.C74_mutex_not_full",
    "Fullock.Props.C74_mutex_stays",
    "Fullock.Props.C74_mutex_never_released",
    "Fullock.Props.C74_mutex_release_not_full",
    "Fullock.Props.C74_mutex_partial",
    "Fullock.Props.C74_enters",
    "Fullock.Props.C74_mutex_enters"
   ],
   "note": "False as stated: the library knows threads only by number. Refuted: exclusion inside a table, release of the locks and mutexes of the dead thread, refusal of the new thread's unlock. Proved: exclusion of mutexes for births at any time and of ranges for births after no half-way request (both given the table lock), table exclusion when nobody has found the dead thread dead, and the ordinary mutex properties when the dead thread left no trace."
  },
  {
   "property": "C75",
   "status": "proved",
   "theorems": [
    "Fullock.Props.C75_refines",
    "Fullock.Props.C75_file_exclusion_partial",
    "Fullock.Props.C75_mutex_exclusion_partial",
    "Fullock.Props.C75_mutex_exclusion_no_wait",
    "Fullock.Props.C75_table",
    "Fullock.Props.C75_table_mutual",
    "Fullock.Props.C75_table_held",
    "Fullock.Props.C75_enter",
    "Fullock.Props.C75_wait",
    "Fullock.Props.C75_leave",
    "Fullock.Props.C75_word",
    "Fullock.Props.C75_word_lost",
    "Fullock.Props.C75_word_writer",
    "Fullock.Props.C75_word_below",
    "Fullock.Props.C75_death",
    "Fullock.Props.C75_place",
    "Fullock.Props.C75_other",
    "Fullock.Props.C75_progress"
   ],
   "note": "The theorems on exclusion have the hypotheses of C72_file_exclusion_partial and C72_mutex_exclusion_partial on deaths; without them exclusion is refuted by C01 and C18 already."
  },
  {
   "property": "C76",
   "status": "partial",
   "theorems": [
    "Fullock.Props.C76_not_full",
    "Fullock.Props.C76_starved",
    "Fullock.Props.C76_starved_calls",
    "Fullock.Props.C76_returns_partial",
    "Fullock.Props.C76_granted_partial",
    "Fullock.Props.C76_quiet"
   ],
   "note": "False as stated: two readers whose locks overlap in time, or a single writer that comes back, keep a waiting thread out for ever under a fair scheduler. Proved: every call returns, and every request without limit is granted, if the calls come to an end; and whenever the word stays free for the caller."
  },
  {
   "property": "C77",
   "status": "partial",
   "theorems": [
    "Fullock.Props.C77_not_full",
    "Fullock.Props.C77_blocked_partial",
    "Fullock.Props.C77_self_partial",
    "Fullock.Props.C77_crossing_partial"
   ],
   "note": "Proved for ranges in clusters, for runs of any length; false when ranges overlap without being clustered, as C01."
  },
  {
   "property": "C78",
   "status": "partial",
   "theorems": [
    "Fullock.Props.C78_not_full",
    "Fullock.Props.C78_upgrade_gap",
    "Fullock.Props.C78_process_partial",
    "Fullock.Props.C78_held_partial",
    "Fullock.Props.C78_exclusion_partial",
    "Fullock.Props.C78_direct_partial",
    "Fullock.Props.C78_released_partial",
    "Fullock.Props.C78_table_partial",
    "Fullock.Props.C78_case"
   ],
   "note": "False as stated: a thread that upgrades or downgrades gives its lock of the range back before it asks for the other one, and another process can get in between. Proved for objects whose range is not being worked on by a call of their own thread; no range straddles another, lock requests of the class do not run out of records."
  },
  {
   "property": "C79",
   "status": "partial",
   "theorems": [
    "Fullock.Props.C79_safe",
    "Fullock.Props.C79_detached",
    "Fullock.Props.C79_used_partial",
    "Fullock.Props.C79_once",
    "Fullock.Props.C79_free_partial",
    "Fullock.Props.C79_locks_partial",
    "Fullock.Props.C79_not_full",
    "Fullock.Props.C79_owner_hidden",
    "Fullock.Props.C79_torn"
   ],
   "note": "Safety of the references is proved for all histories and interleavings. False as stated for what is shown: of the files in use only the first is printed. Proved: the exact output on the records in use, the free lists if the dump ends, all locks if one file is in use."
  },
  {
   "property": "C80",
   "status": "partial",
   "theorems": [
    "Fullock.Props.C80_not_full",
    "Fullock.Props.C80_starved",
    "Fullock.Props.C80_returns_partial",
    "Fullock.Props.C80_calls_partial",
    "Fullock.Props.C80_granted_partial",
    "Fullock.Props.C80_broadcast_partial",
    "Fullock.Props.C80_signal_partial",
    "Fullock.Props.C80_starved_calls",
    "Fullock.Props.C80_quiet",
    "Fullock.Props.C80_unwoken"
   ],
   "note": "False as stated: a thread that unlocks and locks again keeps another one out for ever (the mutex has no queue). Proved if the calls come to an end, for any number of threads, mutexes and conditions; assumes a fair scheduler, releases, that checks of dead owners end and that time passes; nobody dies."
  },
  {
   "property": "C81",
   "status": "proved",
   "theorems": [
    "Fullock.Props.C81_no_deadlock",
    "Fullock.Props.C81_returns",
    "Fullock.Props.C81_stays",
    "Fullock.Props.C81_crossing",
    "Fullock.Props.C81_wait_order"
   ],
   "note": "Deaths outside the window of C18 for the absence of deadlock; nobody dies in the executions of C81_returns, which has the assumptions of C80 with releases weakened to owners that call again. The two existence theorems show that order is needed, for waits as well."
  },
  {
   "property": "C82",
   "status": "partial",
   "theorems": [
    "Fullock.Props.C82_not_full",
    "Fullock.Props.C82_returns_partial",
    "Fullock.Props.C82_granted_partial",
    "Fullock.Props.C82_blocked_partial"
   ],
   "note": "False as stated for one place of death: a thread killed after it has taken the word of a range and before it has marked its record leaves the range locked for nobody, and a waiter checks for dead holders for ever (the kill of C12). Proved for deaths everywhere else."
  },
  {
   "property": "C83",
   "status": "proved",
   "theorems": [
    "Fullock.Props.C83_no_deadlock",
    "Fullock.Props.C83_returns",
    "Fullock.Props.C83_stays",
    "Fullock.Props.C83_crossing"
   ],
   "note": "Deaths outside the windows of C12 (okDeath for the absence and persistence of deadlock, softDeath for the returns), which has the assumptions of C82 with releases weakened to holders that call again. C83_crossing shows that order is needed."
  },
  {
   "property": "C84",
   "status": "partial",
   "theorems": [
    "Fullock.Props.C84_uses_partial",
    "Fullock.Props.C84_refers_partial",
    "Fullock.Props.C84_released_partial",
    "Fullock.Props.C84_held_partial",
    "Fullock.Props.C84_gone",
    "Fullock.Props.C84_dangling",
    "Fullock.Props.C84_not_full"
   ],
   "note": "Full statement refuted: a destructor ignores a refused unlocking and leaves a pointer to the destroyed object in the table of the process. Proved while no destructor's unlocking is refused, for the calls of C70. Each construction takes a new number in the model; objects are used by the thread that constructed them."
  },
  {
   "property": "C85",
   "status": "proved",
   "theorems": [
    "Fullock.Props.C85_behind",
    "Fullock.Props.C85_waits",
    "Fullock.Props.C85_returns",
    "Fullock.Props.C85_free"
   ],
   "note": "Histories of calls as in C70 (okC). Assumed: strong fairness (a thread able to go on again and again goes on); a request in the segment is one step that is possible while no lock is in its way."
  },
  {
   "property": "C86",
   "status": "proved",
   "theorems": [
    "Fullock.Props.C86_no_deadlock",
    "Fullock.Props.C86_returns",
    "Fullock.Props.C86_stays",
    "Fullock.Props.C86_crossing"
   ],
   "note": "Histories of calls as in C70 (okC), in addition in order (okO) for C86_no_deadlock and C86_returns. C86_crossing is the reachable deadlock of two threads that take two ranges in opposite orders. Fairness as in C85."
  },
  {
   "property": "C87",
   "status": "partial",
   "theorems": [
    "Fullock.Props.C87_partial",
    "Fullock.Props.C87_no_self_wait_partial",
    "Fullock.Props.C87_same",
    "Fullock.Props.C87_caller",
    "Fullock.Props.C87_not_full",
    "Fullock.Props.C87_handed",
    "Fullock.Props.C87_shared",
    "Fullock.Props.C87_self_wait"
   ],
   "note": "False for objects made by other threads: the class nests by the thread that constructed the object, the segment locks for the calling thread. A thread that uses an object made by another thread, or an object it shares with it, is told that it has an exclusive lock while the other has one (C87_handed, C87_shared); a thread that holds a lock with an own object waits for itself with an object of another (C87_self_wait). Proved for threads that use objects they made, in the machine whose requests have the calling thread; it then agrees with the machine of C70 step by step (C87_same)."
  },
  {
   "property": "C88",
   "status": "partial",
   "theorems": [
    "Fullock.Props.C88_partial",
    "Fullock.Props.C88_model",
    "Fullock.Props.C88_undefined",
    "Fullock.Props.C88_apart",
    "Fullock.Props.C88_not_full",
    "Fullock.Props.C88_zero",
    "Fullock.Props.C88_long",
    "Fullock.Props.C88_overflow"
   ],
   "note": "False for ranges without bytes and for lengths of 2^63 or more, where an object is not nested in one of the very same range (C88_zero, C88_long), and undefined (signed overflow) where an offset plus a length passes 2^63-1, although the segment handles these ranges (C88_overflow). Proved for ranges with at least one byte whose end is an off_t; for these the natural numbers of the models of the class are the machine's (C88_model)."
  },
  {
   "property": "C89",
   "status": "proved",
   "theorems": [
    "Fullock.Props.Tso.C89_sc",
    "Fullock.Props.Tso.C89_back",
    "Fullock.Props.Tso.C89_tables",
    "Fullock.Props.Tso.C89_exclusive",
    "Fullock.Props.Tso.C89_stable",
    "Fullock.Props.Tso.C89_access",
    "Fullock.Props.Tso.C89_enter",
    "Fullock.Props.Tso.C89_leaves",
    "Fullock.Props.Tso.C89_late",
    "Fullock.Props.Tso.C89_flag",
    "Fullock.Props.Tso.C89_flag_late"
   ],
   "note": "Needs that the writes of a thread are done before others see its death (C89_late: false otherwise). The flag of a granted lock is written outside of the table lock: its own thread, and everybody after that thread's death, sees it when the call has returned (C89_flag); others may see it down for a while (C89_flag_late), which the library never looks at for live threads with their descriptor open. Compiler reorderings are not modelled."
  },
  {
   "property": "C90",
   "status": "proved",
   "theorems": [
    "Fullock.Props.TsoUser.C90_sc",
    "Fullock.Props.TsoUser.C90_exclusive",
    "Fullock.Props.TsoUser.C90_seen",
    "Fullock.Props.TsoUser.C90_stable",
    "Fullock.Props.TsoUser.C90_owner",
    "Fullock.Props.TsoUser.C90_needs"
   ],
   "note": "Blocking calls without robustness; locks of dead threads stay locked (their recovery is in C12, C15 and C82). One unlock call gives a nested mutex back entirely (C20). A range that a thread has is not locked by it again. C90_needs: without locks the claim is false."
  },
  {
   "property": "C91",
   "status": "partial",
   "theorems": [
    "Fullock.Props.C91_known_partial",
    "Fullock.Props.C91_alone_partial",
    "Fullock.Props.C91_held_partial",
    "Fullock.Props.C91_exclusion_partial",
    "Fullock.Props.C91_cross",
    "Fullock.Props.C91_kept",
    "Fullock.Props.C91_progress_partial",
    "Fullock.Props.C91_hangs",
    "Fullock.Props.C91_quiet",
    "Fullock.Props.C91_inherited",
    "Fullock.Props.C91_refused",
    "Fullock.Props.C91_hangs_case",
    "Fullock.Props.C91_case",
    "Fullock.Props.C91_not_full"
   ],
   "note": "The full claim is false (C91_not_full): the child keeps the thread number its thread has cached and a copy of the table, so a new object of the child on a range locked by the forking thread counts as nested and reports a lock the segment has not granted to the child, while the parent has the range exclusively. If another thread of the parent holds the lock of the table at the moment of the fork, requests of the child never return (C91_hangs). Proved: for forks by threads without locks, exclusion between all processes, each thread as if alone (C91_exclusion_partial, C91_alone_partial, C91_held_partial), and progress if the table is not locked (C91_progress_partial); at any time the segment's locks of different processes do not conflict and none is changed by another process (C91_cross, C91_kept)."
  },
  {
   "property": "C92",
   "status": "proved",
   "theorems": [
    "Fullock.Props.C92_sc",
    "Fullock.Props.C92_drained",
    "Fullock.Props.C92_all",
    "Fullock.Props.C92_exclusion",
    "Fullock.Props.C92_progress",
    "Fullock.Props.C92_lag",
    "Fullock.Props.C92_memory_late",
    "Fullock.Props.C92_case"
   ],
   "note": "Refinement of the machine with store buffers to the machine of C70: the state of C70 is memory with each thread's writes to its own objects done and the table as the holder of its lock sees it. The searches read objects of other threads, whose writes may be under way; the thread number, which is compared first and never written after construction, keeps them apart. C92_all is the converse; C92_lag, C92_memory_late show that memory does lag behind."
  },
  {
   "property": "C93",
   "status": "partial",
   "theorems": [
    "Fullock.Props.Res.C93_umask",
    "Fullock.Props.Res.C93_unmapped",
    "Fullock.Props.Res.C93_start",
    "Fullock.Props.Res.C93_create",
    "Fullock.Props.Res.C93_refused",
    "Fullock.Props.Res.C93_safe_partial",
    "Fullock.Props.Res.C93_left_partial",
    "Fullock.Props.Res.C93_clean_partial",
    "Fullock.Props.Res.C93_held_partial",
    "Fullock.Props.Res.C93_watch_partial",
    "Fullock.Props.Res.C93_leak",
    "Fullock.Props.Res.C93_twice",
    "Fullock.Props.Res.C93_cut",
    "Fullock.Props.Res.C93_abort",
    "Fullock.Props.Res.C93_noticed",
    "Fullock.Props.Res.C93_not_full"
   ],
   "note": "The full claim is false (C93_not_full). The child of a fork cannot close the two descriptors of its parent's worker, because its own worker overwrites the variables (C93_leak). A process that has started the library twice has registered its fork handler twice; the child then starts two workers that share the variables, and one uses memory that the other start released (C93_twice). A worker cancelled while it reads events loses its buffer (C93_cut); one that is cancelled in its own cleanup handler, after an error of epoll, loses its descriptors (C93_abort). Proved: these are the only losses, at most two descriptors and one block each (C93_left_partial), none otherwise (C93_clean_partial); without a fork after a second start nothing is released twice or used after release and the program's descriptors are untouched (C93_safe_partial). C93_umask, C93_unmapped, C93_start and C93_create hold for all runs."
  },
  {
   "property": "C94",
   "status": "partial",
   "theorems": [
    "Fullock.Props.RcsvMake.C94_valid",
    "Fullock.Props.RcsvMake.C94_idle",
    "Fullock.Props.RcsvMake.C94_kept",
    "Fullock.Props.RcsvMake.C94_refused",
    "Fullock.Props.RcsvMake.C94_locked_partial",
    "Fullock.Props.RcsvMake.C94_silent",
    "Fullock.Props.RcsvMake.C94_not_full"
   ],
   "note": "Full statement (an object made with a kind is locked) refuted: a refused request is silent. Proved when the requests are granted."
  },
  {
   "property": "C95",
   "status": "partial",
   "theorems": [
    "Fullock.Props.C95_returns_partial",
    "Fullock.Props.C95_calls_partial",
    "Fullock.Props.C95_granted_partial",
    "Fullock.Props.C95_mode",
    "Fullock.Props.C95_stuck",
    "Fullock.Props.C95_not_full"
   ],
   "note": "Full statement refuted: without the robust mode HIGH no waiter checks for dead owners, so it waits for a killed owner for ever (C95_stuck). Proved for executions in which a thread that tries for ever finds its number of attempts over (robust mode HIGH). Starvation by calls without end: C80."
  },
  {
   "property": "C96",
   "status": "partial",
   "theorems": [
    "Fullock.Props.C96_checks",
    "Fullock.Props.C96_returns_partial",
    "Fullock.Props.C96_calls_partial",
    "Fullock.Props.C96_granted_partial",
    "Fullock.Props.C96_stuck",
    "Fullock.Props.C96_not_full"
   ],
   "note": "Full statement refuted: without the robust mode HIGH no waiter checks for dead owners (C96_stuck). Proved for the robust mode HIGH. Unlike C95 nothing is assumed about the checks: that they end and that they look at every mutex of the list is proved from the references in the cells."
  },
  {
   "property": "C97",
   "status": "proved",
   "theorems": [
    "Fullock.Props.C97_owners",
    "Fullock.Props.C97_ownersCall",
    "Fullock.Props.C97_waiters",
    "Fullock.Props.C97_waitersCall"
   ],
   "note": "C21 has this for a check that runs alone; here the others run. Any deaths are allowed, also the window of C18."
  },
  {
   "property": "C98",
   "status": "partial",
   "theorems": [
    "Fullock.Props.C98_seen",
    "Fullock.Props.C98_fork",
    "Fullock.Props.C98_called",
    "Fullock.Props.C98_forever",
    "Fullock.Props.C98_not_full",
    "Fullock.Props.C98_table",
    "Fullock.Props.C98_exclusion_partial",
    "Fullock.Props.C98_exclusion_clean",
    "Fullock.Props.C98_exclusion_no_key",
    "Fullock.Props.C98_child",
    "Fullock.Props.C98_ranges_not_full",
    "Fullock.Props.C98_ranges_table",
    "Fullock.Props.C98_descriptor",
    "Fullock.Props.C98_ranges_partial",
    "Fullock.Props.C98_kept_partial",
    "Fullock.Props.C98_ranges_clean",
    "Fullock.Props.C98_kept_clean",
    "Fullock.Props.C98_ranges_no_key",
    "Fullock.Props.C98_ranges_child"
   ],
   "note": "Full statement refuted: a child of a thread that has called the library stands in the segment under its own process number and its parent's thread number, which do not exist together; it is taken for dead, and its mutexes, its range locks without a descriptor and its hold of the tables are taken away (C98_not_full, C98_table, C98_ranges_not_full, C98_ranges_table). Proved: exactly who is taken for dead; exclusion as long as no step is taken on a wrong answer, in particular when only threads that have not called the library fork, or when no key for the thread number could be had. Range locks with a descriptor are looked up by process and descriptor, so only the hold of the table is at risk for them."
  },
  {
   "property": "C99",
   "status": "partial",
   "theorems": [
    "Fullock.Props.C99_verdict",
    "Fullock.Props.C99_close",
    "Fullock.Props.C99_not_full",
    "Fullock.Props.C99_exclusion_partial",
    "Fullock.Props.C99_kept_partial",
    "Fullock.Props.C99_open_partial",
    "Fullock.Props.C99_checked_partial",
    "Fullock.Props.C99_waiter_partial",
    "Fullock.Props.C99_process",
    "Fullock.Props.C99_thread",
    "Fullock.Props.C99_ended_not_full"
   ],
   "note": "Full statement refuted twice: a check takes away the lock of a living thread whose process has closed the descriptor (C99_not_full), and the lock of an ended thread stays as long as its process has the descriptor open (C99_ended_not_full). Proved: if descriptors are left alone while a living thread holds a lock or is in a call through them, exclusion and keeping hold as if the lives of the threads were looked at; a lock is kept as long as its descriptor is open on the file; a check takes away exactly the locks whose holder is gone in the sense of Spec/FdLife Gone; a process's end makes all of them gone. C99_verdict ties the answers of the model to the verdict of the code in its own numbers. Closing another descriptor of the same file, or the same number in another process, is harmless (unlike fcntl locks)."
  },
  {
   "property": "C100",
   "status": "partial",
   "theorems": [
    "Fullock.Props.C100_check_partial",
    "Fullock.Props.C100_event_partial",
    "Fullock.Props.C100_told",
    "Fullock.Props.C100_close_partial",
    "Fullock.Props.C100_first",
    "Fullock.Props.C100_silent",
    "Fullock.Props.C100_ended",
    "Fullock.Props.C100_seen",
    "Fullock.Props.C100_order",
    "Fullock.Props.C100_not_full",
    "Fullock.Props.C100_old"
   ],
   "note": "Full statement refuted (C100_not_full): the worker is told when the kernel closes the segment file, but the first thread of the ended process is still seen in /proc at that moment and until its parent has waited for it (C100_first, kernel order assumed); a check in between finds it alive, nothing is done when the worker's time is over, and nobody checks until somebody else closes the file (C100_silent). Proved: a check that begins when the thread is seen no more, an event unread at such a moment, or any close of the file by anybody later, leaves nothing of it, for ever, while everybody else goes on (uses C97). In the robust mode HIGH a thread that waits for the mutex checks by itself (C96)."
  },
  {
   "property": "C101",
   "status": "proved",
   "theorems": [
    "Fullock.Props.C101_gone",
    "Fullock.Props.C101_check",
    "Fullock.Props.C101_told",
    "Fullock.Props.C101_kept",
    "Fullock.Props.C101_walk",
    "Fullock.Props.C101_ended",
    "Fullock.Props.C101_order",
    "Fullock.Props.C101_unwatched"
   ],
   "note": "For locks taken through a descriptor of a file, with /proc readable for the worker. In contrast to mutexes (C100) the event is not too early: the descriptors are gone before the segment file is closed (kernel order assumed), so the check started by that very event finds all locks of the process. Locks without a descriptor count while the thread is seen, as in C100. Without a watching process the lock stays (C101_unwatched) until somebody waits for it (C12). A lock word left by a thread killed between taking the word and setting its flag is C17."
  },
  {
   "property": "C102",
   "status": "proved",
   "theorems": [
    "Fullock.Props.C102_lock",
    "Fullock.Props.C102_handled",
    "Fullock.Props.C102_freed",
    "Fullock.Props.C102_weak"
   ],
   "note": "The fairness is the strong one: the internal lock is a spin lock without queue, so with a scheduler that is fair only to threads that are able to go on all the time, a worker can be overtaken for ever by one thread that only asks whether a range is locked; C102_weak shows that execution, in which the locks of the ended process stay for ever. Range locks taken through descriptors, as in C101."
  },
  {
   "property": "C103",
   "status": "proved",
   "theorems": [
    "Fullock.Props.TsoCond.C103_woken",
    "Fullock.Props.TsoCond.C103_handed",
    "Fullock.Props.TsoCond.C103_message",
    "Fullock.Props.TsoCond.C103_told",
    "Fullock.Props.TsoCond.C103_looks",
    "Fullock.Props.TsoCond.C103_ends"
   ],
   "note": "About the word of one waiter record: which record a signal picks is C25-C27 on the model without buffers, the lists inside of the table lock are C89, the mutex of the wait is C90. Left out: the wait whose mutex cannot be unlocked (it sets its own record to told and returns the error)."
  },
  {
   "property": "C104",
   "status": "partial",
   "theorems": [
    "Fullock.Props.Attach.C104_not_full",
    "Fullock.Props.Attach.C104_not_safe",
    "Fullock.Props.Attach.C104_not_exclusive",
    "Fullock.Props.Attach.C104_not_kept",
    "Fullock.Props.Attach.C104_reinit_not_safe",
    "Fullock.Props.Attach.C104_reinit_loses",
    "Fullock.Props.Attach.C104_partial",
    "Fullock.Props.Attach.C104_started_partial",
    "Fullock.Props.Attach.C104_kept_partial",
    "Fullock.Props.Attach.C104_all_or_nothing_partial",
    "Fullock.Props.Attach.C104_first_creates",
    "Fullock.Props.Attach.C104_first_attaches",
    "Fullock.Props.Attach.C104_refused",
    "Fullock.Props.Attach.C104_reinit",
    "Fullock.Props.Attach.C104_refused_while_starting"
   ],
   "note": "The full claim is false: nothing guards the start. Two first calls at the same time: the second finds the descriptor of the first and uses a null pointer (C104_not_safe), or both start, the second erases the file and both are given the lock (C104_not_exclusive), or the second takes the mapping from the first (C104_not_kept). A lock in the model is one step through the address loaded before; its own steps are in the other models. Left out: worker thread, fork."
  },
  {
   "property": "C105",
   "status": "partial",
   "theorems": [
    "Fullock.Props.DbgConc.C105_not_full",
    "Fullock.Props.DbgConc.C105_closed",
    "Fullock.Props.DbgConc.C105_null",
    "Fullock.Props.DbgConc.C105_close_null",
    "Fullock.Props.DbgConc.C105_twice",
    "Fullock.Props.DbgConc.C105_lost",
    "Fullock.Props.DbgConc.C105_partial",
    "Fullock.Props.DbgConc.C105_to_log_partial",
    "Fullock.Props.DbgConc.C105_first_partial",
    "Fullock.Props.DbgConc.C105_print",
    "Fullock.Props.DbgConc.C105_set",
    "Fullock.Props.DbgConc.C105_set_empty",
    "Fullock.Props.DbgConc.C105_unset"
   ],
   "note": "The full claim is false: nothing guards the variable. A message is written to a closed stream (C105_closed) or a null pointer (C105_null), a stream is closed twice (C105_twice), a stream stays open for ever (C105_lost). Proved under the rules named; C105_print, C105_set, C105_set_empty and C105_unset say that a call alone does what C59 says. Left out: a failing fclose (C59), the end of the process."
  },
  {
   "property": "C106",
   "status": "partial",
   "theorems": [
    "Fullock.Props.DumpText.C106_not_full",
    "Fullock.Props.DumpText.C106_lines_partial",
    "Fullock.Props.DumpText.C106_partial",
    "Fullock.Props.DumpText.C106_numbers",
    "Fullock.Props.DumpText.C106_levels",
    "Fullock.Props.DumpText.C106_negative"
   ],
   "note": "The full claim is false: a mutex whose name holds line ends makes the text show a mutex that does not exist (C106_not_full, a name of 49 characters). Proved for names without line ends: the lines are those printed (C106_lines_partial) and the text determines all items (C106_partial). The stream library is taken to print numbers and pointers in its default format. Which records are visited is C79; the two are not linked by a theorem."
  }
 ]
}