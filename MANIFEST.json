{
 "claims": [
  {
   "property": "C01",
   "status": "proved",
   "theorems": [
    "Blobd.Props.C01_layout_exact",
    "Blobd.Props.C01_layout_injective",
    "Blobd.Props.C01_lpage32_panics"
   ],
   "note": "C01_lpage32_panics records the panic of the code at lpage=2^32."
  },
  {
   "property": "C02",
   "status": "proved",
   "theorems": [
    "Blobd.Props.C02_descriptor_is_list",
    "Blobd.Props.C02_descriptor_limits"
   ],
   "note": ""
  },
  {
   "property": "C03",
   "status": "proved",
   "theorems": [
    "Blobd.Props.C03_live_pages_disjoint",
    "Blobd.Props.C03_alloc_disjoint"
   ],
   "note": ""
  },
  {
   "property": "C04",
   "status": "proved",
   "theorems": [
    "Blobd.Props.C04_alloc_fits"
   ],
   "note": ""
  },
  {
   "property": "C05",
   "status": "proved",
   "theorems": [
    "Blobd.Props.C05_release_succeeds",
    "Blobd.Props.C05_empty_is_initial",
    "Blobd.Props.C05_release_all_restores"
   ],
   "note": ""
  },
  {
   "property": "C06",
   "status": "proved",
   "theorems": [
    "Blobd.Props.C06_out_of_space_iff"
   ],
   "note": ""
  },
  {
   "property": "C07",
   "status": "proved",
   "theorems": [
    "Blobd.Props.C07_restart_rebuilds",
    "Blobd.Props.C07_mark_iff"
   ],
   "note": ""
  },
  {
   "property": "C08",
   "status": "partial",
   "theorems": [
    "Blobd.Props.C08_bytes_conserved",
    "Blobd.Props.C08_metric_partial",
    "Blobd.Props.C08_metric_wrong_after_failure"
   ],
   "note": "Conservation of bytes is proved. The metric half is false of the code after a failed allocation: C08_metric_wrong_after_failure is the witness, C08_metric_partial the histories without failure."
  },
  {
   "property": "C09",
   "status": "proved",
   "theorems": [
    "Blobd.Props.C09_regions_disjoint_in_heap",
    "Blobd.Props.C09_out_of_space_iff"
   ],
   "note": ""
  },
  {
   "property": "C10",
   "status": "partial",
   "theorems": [
    "Blobd.Props.C10_release_succeeds",
    "Blobd.Props.C10_release_all_restores",
    "Blobd.Props.C10_restart_rebuilds",
    "Blobd.Props.C10_metric_never_decreases"
   ],
   "note": "Space half proved; the used-space metric half is false of the code: C10_metric_never_decreases."
  },
  {
   "property": "C11",
   "status": "proved",
   "theorems": [
    "Blobd.Props.C11_merged_equals_sequential",
    "Blobd.Props.C11_touches_nothing_else"
   ],
   "note": ""
  },
  {
   "property": "C12",
   "status": "proved",
   "theorems": [
    "Blobd.Props.C12_entries_disjoint",
    "Blobd.Props.C12_any_order_any_repetition"
   ],
   "note": ""
  },
  {
   "property": "C13",
   "status": "proved",
   "theorems": [
    "Blobd.Props.C13_reads_see_latest",
    "Blobd.Props.C13_device_alone_after_ack",
    "Blobd.Props.C13_overlay_drains"
   ],
   "note": ""
  },
  {
   "property": "C14",
   "status": "proved",
   "theorems": [
    "Blobd.Props.C14_record_roundtrip",
    "Blobd.Props.C14_updates_preserve",
    "Blobd.Props.C14_size_limit_is_sharp"
   ],
   "note": ""
  },
  {
   "property": "C15",
   "status": "partial",
   "theorems": [
    "Blobd.Props.C15_disciplined_faultless",
    "Blobd.Props.C15_sequential_is_disciplined",
    "Blobd.Props.C15_disciplined",
    "Blobd.Props.C15_sequential",
    "Blobd.Props.C15_sequential_visible",
    "Blobd.Props.C15_sequential_keys_independent",
    "Blobd.Props.C15_concurrent_partial",
    "Blobd.Props.C15_violated_by_stale_copy",
    "Blobd.Props.C15_violated_by_pending_pointer",
    "Blobd.Props.C15_violated_by_pending_commit"
   ],
   "note": "Proved in full for executions in which calls do not overlap (C15_sequential*). For overlapping calls, proved when none of the excluded events happened: a stale copy of a record, a pointer or inode with a pending journal write used by a deletion or commit, a dropped write. C15_violated_by_stale_copy, _pending_pointer and _pending_commit show the code breaks the claim when they do. C15_disciplined: nothing is excluded when the callers keep changes of a bucket apart (calls of different buckets overlapping freely, inspects/reads/writes of one bucket too, but no other call of a bucket while a create, commit or delete of it runs, and no write dropped during a device write (Spec/LiteApart)): none of the excluded events can happen then (C15_disciplined_faultless)."
  },
  {
   "property": "C16",
   "status": "partial",
   "theorems": [
    "Blobd.Props.C16_lists_disciplined",
    "Blobd.Props.C16_unlink_disciplined",
    "Blobd.Props.C16_lists_sequential",
    "Blobd.Props.C16_unlink_sequential",
    "Blobd.Props.C16_lists_partial",
    "Blobd.Props.C16_unlink_partial",
    "Blobd.Props.C16_violated_by_pending_pointer"
   ],
   "note": "Proved in full for executions in which calls do not overlap (C16_*_sequential); for overlapping calls with the exclusions of C15. C16_violated_by_pending_pointer: deleting an object while an object in front of it is being created leaves it in the list. C16_lists_disciplined, C16_unlink_disciplined: nothing excluded under the rule of C15_disciplined."
  },
  {
   "property": "C17",
   "status": "partial",
   "theorems": [
    "Blobd.Props.C17_head_roundtrip_partial",
    "Blobd.Props.C17_violated_at_startup",
    "Blobd.Props.C17_alignment_needed"
   ],
   "note": "False of the code on the start-up path (shift in the wrong direction): C17_violated_at_startup; the run-time path is C17_head_roundtrip_partial."
  },
  {
   "property": "C18",
   "status": "proved",
   "theorems": [
    "Blobd.Props.C18_lite_read_exact",
    "Blobd.Props.C18_direct_read_exact",
    "Blobd.Props.C18_direct_zero_buffer_never_ends"
   ],
   "note": "For a stream buffer size of 0 the direct stream never ends (C18_direct_zero_buffer_never_ends); the theorems take a positive buffer size."
  },
  {
   "property": "C19",
   "status": "proved",
   "theorems": [
    "Blobd.Props.C19_kv_range_exact",
    "Blobd.Props.C19_kv_missing",
    "Blobd.Props.C19_lite_range_exact",
    "Blobd.Props.C19_direct_range_exact"
   ],
   "note": ""
  },
  {
   "property": "C20",
   "status": "proved",
   "theorems": [
    "Blobd.Props.C20_lite_write_then_read",
    "Blobd.Props.C20_direct_write_then_read",
    "Blobd.Props.C20_writes_succeed",
    "Blobd.Props.C20_concurrent_writers"
   ],
   "note": ""
  },
  {
   "property": "C21",
   "status": "proved",
   "theorems": [
    "Blobd.Props.C21_accepted_exactly_at_part_boundaries"
   ],
   "note": ""
  },
  {
   "property": "C22",
   "status": "partial",
   "theorems": [
    "Blobd.Props.C22_chunking_irrelevant_partial",
    "Blobd.Props.C22_violated_short_body_never_ends",
    "Blobd.Props.C22_violated_empty_chunk_panics"
   ],
   "note": "False of the code when the body is shorter than declared (lite) or has an empty chunk; witnesses C22_violated_*; C22_chunking_irrelevant_partial covers the rest."
  },
  {
   "property": "C23",
   "status": "proved",
   "theorems": [
    "Blobd.Props.C23_writes_stay_in_part",
    "Blobd.Props.C23_final_device",
    "Blobd.Props.C23_blocks_ok"
   ],
   "note": ""
  },
  {
   "property": "C24",
   "status": "proved",
   "theorems": [
    "Blobd.Props.C24_tuple_roundtrip",
    "Blobd.Props.C24_bundle_roundtrip",
    "Blobd.Props.C24_formatted_empty"
   ],
   "note": ""
  },
  {
   "property": "C25",
   "status": "proved",
   "theorems": [
    "Blobd.Props.C25_disk_exact_when_quiet",
    "Blobd.Props.C25_catches_up",
    "Blobd.Props.C25_acknowledged_insert_on_disk",
    "Blobd.Props.C25_acknowledged_update_on_disk",
    "Blobd.Props.C25_bytes_follow"
   ],
   "note": ""
  },
  {
   "property": "C26",
   "status": "partial",
   "theorems": [
    "Blobd.Props.C26_panics_only_without_free_bundle_partial",
    "Blobd.Props.C26_never_free_again",
    "Blobd.Props.C26_violated_slots_lost"
   ],
   "note": "False of the code: slots of a bundle that filled up are never offered again, C26_violated_slots_lost."
  },
  {
   "property": "C27",
   "status": "proved",
   "theorems": [
    "Blobd.Props.C27_linearizable",
    "Blobd.Props.C27_visible_iff",
    "Blobd.Props.C27_if_not_exists",
    "Blobd.Props.C27_lookups",
    "Blobd.Props.C27_ids_fresh",
    "Blobd.Props.C27_own_key"
   ],
   "note": "Linearizability of one partition under all interleavings of calls, device writes, background tuple commits, crashes and restarts; each visible object is visible from its commit until the next commit or delete of that key took effect; if_not_exists; answers explained by events inside the call; ids never repeat (random 128-bit ids assumed fresh)."
  },
  {
   "property": "C28",
   "status": "partial",
   "theorems": [
    "Blobd.Props.C28_disciplined_restart_partial",
    "Blobd.Props.C28_disciplined_commit_partial",
    "Blobd.Props.C28_disciplined_delete_partial",
    "Blobd.Props.C28_disciplined_create_partial",
    "Blobd.Props.C28_disciplined_quiet_restart_partial",
    "Blobd.Props.C28_disciplined_forever_partial",
    "Blobd.Props.C28_restart_partial",
    "Blobd.Props.C28_acknowledged_commit_partial",
    "Blobd.Props.C28_acknowledged_delete_partial",
    "Blobd.Props.C28_acknowledged_create_partial",
    "Blobd.Props.C28_commit_not_both_partial",
    "Blobd.Props.C28_violated_by_replaced_object",
    "Blobd.Props.C28_violated_by_overlap"
   ],
   "note": "Violated by the code (two theorems C28_violated_*): (1) start-up finds two committed objects with one key (crash while a replaced object's tuple was being deleted), keeps the newer one in memory but leaves the older tuple on disk, and it reappears after the newer one is deleted and acknowledged; (2) two overlapping commits of one key can finish with the acknowledged winner having the smaller id, and the loader keeps the larger id. Proved for every reachable crash point without those events (and without the page faults of C29): restart succeeds in every scan order; every acknowledged commit/delete/create not superseded afterwards is there; each key shows its last effect or, only if a call was unanswered, the value just before that call's effect; a commit never leaves both the committed and the incomplete object. The C28_disciplined_* theorems replace the excluded events by conditions on the history only (Spec/DirectDiscipline: one commit/delete per key at a time, no dropped write, metadata of at most two small pages, earlier crashes not in the middle of a replacing commit); C28_disciplined_forever_partial: once answered, a key keeps its object and bytes through any number of crashes and restarts until a commit or delete of it takes effect."
  },
  {
   "property": "C29",
   "status": "partial",
   "theorems": [
    "Blobd.Props.C29_metadata_intact_partial",
    "Blobd.Props.C29_no_shared_page_partial",
    "Blobd.Props.C29_not_free_partial",
    "Blobd.Props.C29_restart_succeeds_partial",
    "Blobd.Props.C29_violated_by_replaced_object",
    "Blobd.Props.C29_violated_by_dropped_write",
    "Blobd.Props.C29_disciplined_faultless"
   ],
   "note": "Violated by the code (two theorems C29_violated_*: replaced object skipped at start-up keeps its tuple while its pages are free; a dropped write_object completes after the page was reused). Proved for every reachable state without these two events and without the oversized-metadata case of C30: metadata intact, pages disjoint and not free while referenced, restart succeeds in every order. Also for all executions of well-behaved clients, described by the history only (Spec/DirectDiscipline, Props/DirectDiscipline)."
  },
  {
   "property": "C30",
   "status": "partial",
   "theorems": [
    "Blobd.Props.C30_lite_recorded_is_allocated",
    "Blobd.Props.C30_direct_condition",
    "Blobd.Props.C30_small_metadata_partial",
    "Blobd.Props.C30_violated_large_metadata",
    "Blobd.Props.C30_violated_concrete"
   ],
   "note": "Lite: the recorded size is what was allocated. Direct: false when metadata exceeds the small page (C30_violated_large_metadata, C30_violated_concrete); C30_small_metadata_partial covers the rest."
  },
  {
   "property": "C31",
   "status": "proved",
   "theorems": [
    "Blobd.Props.C31_unaligned_read_exact"
   ],
   "note": ""
  },
  {
   "property": "C32",
   "status": "proved",
   "theorems": [
    "Blobd.Props.C32_lists_each_once",
    "Blobd.Props.C32_default_is_everything",
    "Blobd.Props.C32_resume_exact",
    "Blobd.Props.C32_load_order_irrelevant",
    "Blobd.Props.C32_data_exact"
   ],
   "note": ""
  },
  {
   "property": "C33",
   "status": "partial",
   "theorems": [
    "Blobd.Props.C33_bundle_roundtrip",
    "Blobd.Props.C33_fits_iff",
    "Blobd.Props.C33_written_data_storable",
    "Blobd.Props.C33_violated_empty_key"
   ],
   "note": "Proved for every list of tuples with non-empty keys; false of the code for the empty key, which write_object accepts (C33_violated_empty_key)."
  },
  {
   "property": "C34",
   "status": "partial",
   "theorems": [
    "Blobd.Props.C34_disciplined_no_fault",
    "Blobd.Props.C34_disciplined",
    "Blobd.Props.C34_few_calls",
    "Blobd.Props.C34_disciplined_concurrent",
    "Blobd.Props.C34_applied_issued",
    "Blobd.Props.C34_read_latest_partial",
    "Blobd.Props.C34_concurrent_read_partial",
    "Blobd.Props.C34_violated_bundle_overflow"
   ],
   "note": "False of the code: when a bundle outgrows its page the commit task panics, the panic is swallowed and acknowledged writes vanish (C34_violated_bundle_overflow). Proved for every execution without that event, without restarting over heap tuples in the log, without flushes longer than the replay buffer, and with non-empty keys, including reads spread over time. C34_disciplined* remove the event hypotheses for a client that stays within API-level limits (existing keys fit their bundle page, calls under way smaller than the replay buffer, only inline-size values before a restart, no empty key)."
  },
  {
   "property": "C35",
   "status": "partial",
   "theorems": [
    "Blobd.Props.C35_disciplined",
    "Blobd.Props.C35_crash_recovers_partial",
    "Blobd.Props.C35_violated_heap_tuple_in_log"
   ],
   "note": "False of the code: restart does not reserve the heap space of tuples replayed from the log (C35_violated_heap_tuple_in_log), and bundle overflow loses data (C34_violated_bundle_overflow). Proved for every crash point of all other executions. C35_disciplined: full claim for a client within API-level limits (see C34)."
  },
  {
   "property": "C36",
   "status": "partial",
   "theorems": [
    "Blobd.Props.C36_replay_exact_partial",
    "Blobd.Props.C36_violated_unaligned_ring",
    "Blobd.Props.C36_violated_gap_exceeds_buffer"
   ],
   "note": "Proved for rings that are a multiple of the small page and flushes no longer than the replay buffer; false otherwise (C36_violated_unaligned_ring, C36_violated_gap_exceeds_buffer)."
  },
  {
   "property": "C37",
   "status": "proved",
   "theorems": [
    "Blobd.Props.C37_never_overwrites",
    "Blobd.Props.C37_flushes_disjoint",
    "Blobd.Props.C37_inside_ring"
   ],
   "note": "For rings that are a multiple of the small page."
  },
  {
   "property": "C38",
   "status": "partial",
   "theorems": [
    "Blobd.Props.C38_kv_regions_partial",
    "Blobd.Props.C38_violated_heap_always_overlaps_log",
    "Blobd.Props.C38_violated_log_is_inside_heap",
    "Blobd.Props.C38_violated_bundles_may_overlap_log"
   ],
   "note": "False of the code: the heap region computed by every accepted configuration overlaps the log region (C38_violated_*). C38_kv_regions_partial is what holds."
  },
  {
   "property": "C39",
   "status": "partial",
   "theorems": [
    "Blobd.Props.C39_lite_regions_partial",
    "Blobd.Props.C39_heap_inside_iff",
    "Blobd.Props.C39_violated_heap_past_device_end"
   ],
   "note": "The regions are disjoint; the heap may run past the device end (C39_violated_heap_past_device_end; C39_heap_inside_iff is the exact condition)."
  },
  {
   "property": "C40",
   "status": "proved",
   "theorems": [
    "Blobd.Props.C40_direct_regions",
    "Blobd.Props.C40_partition_access_confined",
    "Blobd.Props.C40_tuple_store_never_touches_heap"
   ],
   "note": ""
  },
  {
   "property": "C41",
   "status": "partial",
   "theorems": [
    "Blobd.Props.C41_token_accepted_iff_issued",
    "Blobd.Props.C41_no_call_without_token",
    "Blobd.Props.C41_valid_token_not_refused",
    "Blobd.Props.C41_call_matches_action_partial",
    "Blobd.Props.C41_violated_upload_not_bound_to_key"
   ],
   "note": "Tokens: accepted exactly when issued for the action and unexpired, and every endpoint demands it (proved, under MAC unforgeability). Upload tokens are not bound to a key, so a commit or write token for one key acts on an upload of another: C41_violated_upload_not_bound_to_key."
  },
  {
   "property": "C42",
   "status": "partial",
   "theorems": [
    "Blobd.Props.C42_all_parts_acked_partial",
    "Blobd.Props.C42_violated_commit_with_missing_parts",
    "Blobd.Props.C42_honest_upload_commits"
   ],
   "note": "False of the code: a write receipt can be presented as an upload token for a smaller object (C42_violated_commit_with_missing_parts). C42_all_parts_acked_partial proves the claim when the commit carries the upload token returned by create, or the object has one part, and describes exactly what is possible otherwise."
  },
  {
   "property": "C43",
   "status": "proved",
   "theorems": [
    "Blobd.Props.C43_batch_is_sequence",
    "Blobd.Props.C43_parts_accepted",
    "Blobd.Props.C43_batch_stores_exactly",
    "Blobd.Props.C43_truncated_body",
    "Blobd.Props.C43_js_batch_is_sequence",
    "Blobd.Props.C43_violated_excess_data_becomes_objects"
   ],
   "note": "Both clients. C43_violated_excess_data_becomes_objects shows what happens outside the statement, when the declared size is smaller than the data."
  },
  {
   "property": "C44",
   "status": "partial",
   "theorems": [
    "Blobd.Props.C44_bounded_range_exact",
    "Blobd.Props.C44_open_range_exact",
    "Blobd.Props.C44_whole_object",
    "Blobd.Props.C44_refused",
    "Blobd.Props.C44_violated_suffix_range",
    "Blobd.Props.C44_violated_empty_range_accepted",
    "Blobd.Props.C44_violated_last_byte_overflow",
    "Blobd.Props.C44_client_request",
    "Blobd.Props.C44_js_range_exact",
    "Blobd.Props.C44_rust_client_end_inclusive",
    "Blobd.Props.C44_malformed_range_ignored",
    "Blobd.Props.C44_violated_js_end_zero"
   ],
   "note": "Bounded and open ranges exact, other parsed ranges refused, unparseable headers ignored; false of the code for suffix ranges, empty ranges, the last u64, the JavaScript client with end 0 (C44_violated_*); the Rust client treats end as inclusive, the JavaScript client as exclusive."
  },
  {
   "property": "C45",
   "status": "proved",
   "theorems": [
    "Blobd.Props.C45_kv_one_bundle",
    "Blobd.Props.C45_kv_keys_distinct",
    "Blobd.Props.C45_lite_bucket_in_range",
    "Blobd.Props.C45_direct_one_partition"
   ],
   "note": ""
  },
  {
   "property": "C46",
   "status": "partial",
   "theorems": [
    "Blobd.Props.C46_success_only_on_success_partial",
    "Blobd.Props.C46_error_classes",
    "Blobd.Props.C46_violated_errors_share_status"
   ],
   "note": "Success statuses only on success (outside batch), error classes exact; four errors share 416 and batch always answers 200 (C46_violated_errors_share_status)."
  },
  {
   "property": "C47",
   "status": "proved",
   "theorems": [
    "Blobd.Props.C47_device_is_commit_order_prefix",
    "Blobd.Props.C47_quiescent",
    "Blobd.Props.C47_progress",
    "Blobd.Props.C47_oversized_transaction_overruns"
   ],
   "note": ""
  },
  {
   "property": "C48",
   "status": "partial",
   "theorems": [
    "Blobd.Props.C48_journal_record_suffices_partial",
    "Blobd.Props.C48_violated_recovery_loses_atomicity"
   ],
   "note": "False of the code: journal recovery is not implemented (C48_violated_recovery_loses_atomicity). C48_journal_record_suffices_partial shows the journal record is sufficient to recover."
  },
  {
   "property": "C49",
   "status": "partial",
   "theorems": [
    "Blobd.Props.C49_direct_undisturbed_partial",
    "Blobd.Props.C49_direct_violated",
    "Blobd.Props.C49_kv_disciplined",
    "Blobd.Props.C49_kv_undisturbed_partial",
    "Blobd.Props.C49_kv_violated",
    "Blobd.Props.C49_lite_disciplined_partial",
    "Blobd.Props.C49_lite_undisturbed_partial",
    "Blobd.Props.C49_lite_violated"
   ],
   "note": "False in KV, direct and lite when the object is deleted during the read (C49_kv_violated, C49_direct_violated, C49_lite_violated); proved when the key is not written (KV), the object is visible or its deletion unanswered (direct), or it is listed and committed or its pages not yet released (lite) during the read. C49_lite_disciplined_partial: the same in lite for every execution under the usage rule, with no hypothesis on faults."
  },
  {
   "property": "C50",
   "status": "partial",
   "theorems": [
    "Blobd.Props.C50_js_exact",
    "Blobd.Props.C50_js_survives_iff",
    "Blobd.Props.C50_rust_exact",
    "Blobd.Props.C50_rust_survives_iff",
    "Blobd.Props.C50_key_survives_partial",
    "Blobd.Props.C50_any_spelling",
    "Blobd.Props.C50_stray_percent",
    "Blobd.Props.C50_violated"
   ],
   "note": "Exact for both clients. Rust: survives iff no trailing space, no ?, #, backslash, no dot segment, no %hh (C50_rust_survives_iff); C50_rust_exact says what every other key becomes. JavaScript: only dot segments are changed (C50_js_survives_iff). The full property is false of the code (C50_violated). C50_any_spelling and C50_stray_percent: the server takes every percent-spelling of a key (either hex case, any bytes escaped) for that key."
  },
  {
   "property": "C51",
   "status": "partial",
   "theorems": [
    "Blobd.Props.C51_incomplete_isolated_partial",
    "Blobd.Props.C51_visible_unchanged_partial",
    "Blobd.Props.C51_restart_unchanged",
    "Blobd.Props.C51_disciplined_partial"
   ],
   "note": "Proved for every reachable state and step when no write_object call was dropped mid-write, no restart found two committed objects with one key and no oversized metadata (C30); C29_violated_by_dropped_write shows the first exclusion is needed. Also for all executions of well-behaved clients, described by the history only (Spec/DirectDiscipline, Props/DirectDiscipline)."
  },
  {
   "property": "C52",
   "status": "partial",
   "theorems": [
    "Blobd.Props.C52_disciplined",
    "Blobd.Props.C52_visible_unchanged_partial",
    "Blobd.Props.C52_incomplete_isolated_partial",
    "Blobd.Props.C52_no_shared_page_partial",
    "Blobd.Props.C52_no_page_twice_partial",
    "Blobd.Props.C52_violated_by_dropped_write"
   ],
   "note": "Proved for every reachable state and step with the exclusions of C15, including every sequential execution; C52_violated_by_dropped_write shows a dropped write_object call overwrites another object. C52_disciplined: nothing excluded under the rule of C15_disciplined."
  },
  {
   "property": "C53",
   "status": "partial",
   "theorems": [
    "Blobd.Props.C53_violated_js_token_never_accepted",
    "Blobd.Props.C53_violated_js_requests_unauthorized",
    "Blobd.Props.C53_js_verify_partial",
    "Blobd.Props.C53_rust_authorized_iff",
    "Blobd.Props.C53_rust_calls"
   ],
   "note": "Rust client: exact (C53_rust_authorized_iff, C53_rust_calls: authorised iff the key survives C50). JavaScript client: false of the code for every token (it authenticates a map, the server an array): C53_violated_js_*. The JS library's own verifier is exact (C53_js_verify_partial)."
  },
  {
   "property": "C54",
   "status": "partial",
   "theorems": [
    "Blobd.Props.C54_receipts_any_order",
    "Blobd.Props.C54_put_then_read_partial",
    "Blobd.Props.C54_violated_other_page_size",
    "Blobd.Props.C54_put_accepted_iff"
   ],
   "note": "Proved end to end (tokens, requests, concurrent writers on the device, receipts, commit, read) when the large page is 16 MiB or the file fits one tile and one page; C54_put_accepted_iff shows these are exactly the cases in which the writes are accepted; false of the code otherwise (C54_violated_other_page_size)."
  },
  {
   "property": "C55",
   "status": "partial",
   "theorems": [
    "Blobd.Props.C55_violated_nothing_uploaded",
    "Blobd.Props.C55_violated_relative_path_skipped",
    "Blobd.Props.C55_violated_success_reported",
    "Blobd.Props.C55_files_uploaded_partial"
   ],
   "note": "False of the code: absolute paths and \".\" abort before the first file, other relative paths skip every file, and success is reported whatever the server created (C55_violated_*). Proved for lists of files by absolute path (C55_files_uploaded_partial)."
  },
  {
   "property": "C56",
   "status": "partial",
   "theorems": [
    "Blobd.Props.C56_disciplined_partial",
    "Blobd.Props.C56_space_reclaimed_partial",
    "Blobd.Props.C56_empty_store_partial",
    "Blobd.Props.C56_free_bytes_partial",
    "Blobd.Props.C56_restart_reclaims_partial",
    "Blobd.Props.C56_violated_by_failed_create"
   ],
   "note": "Proved for every reachable state in which all calls were answered and none of the C29 events happened (exact characterisation of what can be allocated, bytes, empty store, every restart). Violated by the code otherwise: a create that runs out of space keeps the pages it got (C56_violated_by_failed_create: one such call fills an empty store until the next restart). Also for all executions of well-behaved clients, described by the history only (Spec/DirectDiscipline, Props/DirectDiscipline)."
  },
  {
   "property": "C57",
   "status": "partial",
   "theorems": [
    "Blobd.Props.C57_violated_uploads_never_expire",
    "Blobd.Props.C57_violated_space_kept"
   ],
   "note": "False of the code: the configured time is never read. C57_violated_*: for every execution and any number of restarts an upload stays, with its pages, until it is committed."
  },
  {
   "property": "C58",
   "status": "partial",
   "theorems": [
    "Blobd.Props.C58_one_store_partial",
    "Blobd.Props.C58_list_partial",
    "Blobd.Props.C58_restart_partial",
    "Blobd.Props.C58_violated_by_added_partition"
   ],
   "note": "Proved for every number of partitions and hash: linearizability of the whole store, list_objects (at one moment), restart; under the conditions of C28/C29 in each partition. Adding a partition makes committed objects unreachable (C58_violated_by_added_partition)."
  },
  {
   "property": "C59",
   "status": "partial",
   "theorems": [
    "Blobd.Props.C59_at_most_slots",
    "Blobd.Props.C59_create_fails_iff_full",
    "Blobd.Props.C59_violated_reserved_space_too_small",
    "Blobd.Props.C59_violated_create_refused_early",
    "Blobd.Props.C59_enough_space",
    "Blobd.Props.C59_store_capacity_partial"
   ],
   "note": "Upper bound in every execution; without deletes since the last start a create fails exactly when all slots are taken, and a sufficient size is proved. Second half false: 20 bytes per object are reserved, 24 are needed, C59_violated_* (for every configuration with parts*large page <= 4*objects). With deletes, slots are lost (C26)."
  },
  {
   "property": "C60",
   "status": "partial",
   "theorems": [
    "Blobd.Props.C60_fs_read_to_end_partial",
    "Blobd.Props.C60_fs_read_in_one_go_partial",
    "Blobd.Props.C60_violated_fs_short_read",
    "Blobd.Props.C60_violated_fs_past_end",
    "Blobd.Props.C60_rocksdb_read_exact",
    "Blobd.Props.C60_kv_read_exact",
    "Blobd.Props.C60_s3_read_to_end_partial",
    "Blobd.Props.C60_violated_s3_one_byte_too_many",
    "Blobd.Props.C60_violated_s3_empty_object",
    "Blobd.Props.C60_direct_read_exact",
    "Blobd.Props.C60_lite_read_exact_partial",
    "Blobd.Props.C60_violated_lite_empty"
   ],
   "note": "Exact for RocksDB and KV; for the file system and S3 only to the end of the object (or, file system, if the first read fills the buffer). C60_violated_*: file-system reads that end earlier panic after a short read; past the end they never finish; S3 returns one byte too many for every range that ends inside the object. Direct: exact, panics outside the object. Lite: exact for non-empty ranges; C60_violated_lite_empty: empty ranges and empty objects panic."
  },
  {
   "property": "C61",
   "status": "partial",
   "theorems": [
    "Blobd.Props.C61_s3_upload_exact_partial",
    "Blobd.Props.C61_violated_s3_empty",
    "Blobd.Props.C61_violated_rocksdb_visible_before_commit",
    "Blobd.Props.C61_violated_fs_create_truncates",
    "Blobd.Props.C61_fs_upload_exact_partial",
    "Blobd.Props.C61_rocksdb_upload_exact_partial",
    "Blobd.Props.C61_direct_upload_exact",
    "Blobd.Props.C61_lite_upload_exact",
    "Blobd.Props.C61_blobd_upload_succeeds",
    "Blobd.Props.C61_kv_upload_exact_partial",
    "Blobd.Props.C61_violated_kv_visible_before_commit",
    "Blobd.Props.C61_violated_kv_empty",
    "Blobd.Props.C61_violated_kv_large",
    "Blobd.Props.C61_kv_no_piece_lost",
    "Blobd.Props.C61_rocksdb_no_piece_lost"
   ],
   "note": "Contents exact for S3 (non-empty objects) and the file system, for every order of the writes. C61_violated_*: the file system destroys the old object at create, RocksDB (and KV, whose create and commit do nothing either) shows the new one at the write, empty objects fail to commit (S3) or never appear (RocksDB, KV). Direct and lite: exact for every order of the pieces (visibility at commit: C27, C15). KV: exact up to 16 MiB; C61_violated_kv_*: visible before commit, empty objects vanish, larger ones panic."
  },
  {
   "property": "C62",
   "status": "partial",
   "theorems": [
    "Blobd.Props.C62_contents_partial",
    "Blobd.Props.C62_read_back_partial",
    "Blobd.Props.C62_parts_write_pages",
    "Blobd.Props.C62_uploaded_partial",
    "Blobd.Props.C62_unwritten_upload_shows_old_bytes"
   ],
   "note": "Partial: for polite clients and crashes that do not hit a replacing commit (Spec/DirectDiscipline; C28, C29 show the store breaks otherwise). C62_unwritten_upload_shows_old_bytes: an upload committed without writing shows bytes of deleted objects."
  },
  {
   "property": "C63",
   "status": "proved",
   "theorems": [
    "Blobd.Props.C63_call_is_what_the_method_means",
    "Blobd.Props.C63_get_and_head_change_nothing",
    "Blobd.Props.C63_not_allowed",
    "Blobd.Props.C63_calls_happen",
    "Blobd.Props.C63_success_statuses"
   ],
   "note": "axum's extraction of path, query and headers is by contract."
  },
  {
   "property": "C64",
   "status": "partial",
   "theorems": [
    "Blobd.Props.C64_disciplined_partial",
    "Blobd.Props.C64_load_exact_partial",
    "Blobd.Props.C64_load_keeps_contents_partial",
    "Blobd.Props.C64_idle_is_durable",
    "Blobd.Props.C64_reopened_partial",
    "Blobd.Props.C64_empty_reopens",
    "Blobd.Props.C64_violated_never_opens",
    "Blobd.Props.C64_violated_pages_reused"
   ],
   "note": "Proved: with no call running all changes are on the device and its lists are the abstract store; calls after reopening that use no allocator (lookup, read, write, commit) go on as if there had been no restart; an empty store reopens exactly like a new one; whatever is on the device, the space startup takes for used is exactly the content pages of the inodes it comes across, and nothing allocated later touches them (C64_load_exact_partial, C64_load_keeps_contents_partial). C64_violated_never_opens: for every store with an object whose startup address off/65536 lies in the slot of an empty bucket, opening panics (wrong shift in load_buckets). C64_violated_pages_reused: where opening succeeds by accident, the pages are not marked as used and a new object overwrites an old one. C64_disciplined_partial: under the usage rule the first part needs no hypothesis on faults."
  },
  {
   "property": "C65",
   "status": "partial",
   "theorems": [
    "Blobd.Props.C65_disciplined_lookup",
    "Blobd.Props.C65_disciplined_commit",
    "Blobd.Props.C65_disciplined_create_partial",
    "Blobd.Props.C65_disciplined_create_lookup_partial",
    "Blobd.Props.C65_disciplined_delete_partial",
    "Blobd.Props.C65_disciplined_delete_lookup_partial",
    "Blobd.Props.C65_disciplined_crash_partial",
    "Blobd.Props.C65_disciplined_crash_versioned_partial",
    "Blobd.Props.C65_disciplined_crash_lookup_partial",
    "Blobd.Props.C65_crash_partial",
    "Blobd.Props.C65_commit_atomic",
    "Blobd.Props.C65_quiet_bucket_partial",
    "Blobd.Props.C65_quiet_lookup_partial",
    "Blobd.Props.C65_pending_commits_partial",
    "Blobd.Props.C65_pending_commits_lookup_partial",
    "Blobd.Props.C65_violated_create_half_applied",
    "Blobd.Props.C65_violated_replacing_commit"
   ],
   "note": "Proved for calls one at a time at every crash point outside two windows (C65_crash_partial); a commit that replaces nothing, or any commit with versioning, is atomic at every crash point (C65_commit_atomic). For overlapping calls in any interleaving and every crash point: a bucket all of whose changes have been answered is on the device as answered, whatever goes on in other buckets (C65_quiet_bucket_partial), and after the restart every inspect of its keys is answered accordingly (C65_quiet_lookup_partial); when its only unanswered changes are commits that replaced nothing, it is on the device as answered but for some of these commits, each of which has happened entirely or not at all (C65_pending_commits_partial, C65_pending_commits_lookup_partial). Missing: the windows (C65_violated_create_half_applied, C65_violated_replacing_commit show the code breaks the claim there), buckets with other unanswered changes under overlapping calls, torn direct pointer writes, and that opening succeeds at all (C64). C65_disciplined_lookup, C65_disciplined_commit: under the rule of C15_disciplined no fault is excluded, and a bucket being committed to is left with or without that commit. In general (C65_disciplined_crash_partial, C65_disciplined_crash_lookup_partial): outside these two windows every bucket is, after the crash, as after everything that happened or as before its last change, which then was not answered. C65_disciplined_create_partial, C65_disciplined_create_lookup_partial: a bucket in which a create is pending is left with or without the new object, and with everything else, unless the journal is in the middle of writing to places (the violated window). C65_disciplined_delete_partial, C65_disciplined_delete_lookup_partial: likewise a bucket in which a delete is pending, with or without the deleted object."
  },
  {
   "property": "C66",
   "status": "partial",
   "theorems": [
    "Blobd.Props.C66_space_exact_partial",
    "Blobd.Props.C66_empty_store_partial",
    "Blobd.Props.C66_only_small",
    "Blobd.Props.C66_disciplined",
    "Blobd.Props.C66_restart_reclaims",
    "Blobd.Props.C66_violated_leak",
    "Blobd.Props.C66_violated_stuck"
   ],
   "note": "Proved for every execution in which no large value is overwritten or deleted before a background commit has taken it up (C66_space_exact_partial, C66_empty_store_partial), so always for values kept in the log (C66_only_small, C66_disciplined) and after every restart at rest (C66_restart_reclaims). C66_violated_leak: a large value deleted before it is committed leaks its space until restart; one such value can fill the heap. C66_violated_stuck: with a committed value filling the heap, deleting it and writing eight bytes elsewhere leaves the store stuck for good, across restarts: the commit allocates before it releases. Excluded: the faults of C34 and the empty key."
  },
  {
   "property": "C67",
   "status": "partial",
   "theorems": [
    "Blobd.Props.C67_disciplined_partial",
    "Blobd.Props.C67_no_hidden_use_partial",
    "Blobd.Props.C67_space_exact_partial",
    "Blobd.Props.C67_sequential_partial",
    "Blobd.Props.C67_empty_store_partial",
    "Blobd.Props.C67_incomplete_never_freed",
    "Blobd.Props.C67_violated_by_failed_create",
    "Blobd.Props.C67_violated_by_abandoned"
   ],
   "note": "Proved for all concurrent executions without a failed create (C67_no_hidden_use_partial, C67_space_exact_partial, C67_empty_store_partial; faults of C15 excluded, none for sequential calls: C67_sequential_partial). C67_violated_by_failed_create: a create the heap has no room for keeps the pages it got, so one request can fill the store. C67_incomplete_never_freed / C67_violated_by_abandoned: an incomplete object stays listed for ever unless committed; reap_incomplete_objects_after_secs is never read. C67_disciplined_partial: under the rule of C15_disciplined only failed creates are excluded."
  },
  {
   "property": "C68",
   "status": "partial",
   "theorems": [
    "Blobd.Props.C68_every_call_answered_partial",
    "Blobd.Props.C68_answered_in_order_partial",
    "Blobd.Props.C68_answered_if_fits",
    "Blobd.Props.C68_commit_ends_partial",
    "Blobd.Props.C68_never_blocked",
    "Blobd.Props.C68_commit_never_blocked",
    "Blobd.Props.C68_violated_by_burst",
    "Blobd.Props.C68_violated_by_full_log"
   ],
   "note": "Proved by liveness arguments over infinite fair runs: all calls answered while the log has room when the flusher needs it (C68_every_call_answered_partial, C68_answered_in_order_partial), and unconditionally when the log has room for the calls outstanding (C68_answered_if_fits); a commit ends unless it panics (C68_commit_ends_partial); no party is ever blocked except by a full log (C68_never_blocked, C68_commit_never_blocked), so fairness is satisfiable. C68_violated_by_burst: a burst longer than the log makes the flusher panic and no call is answered again; C68_violated_by_full_log: with a commit threshold within a page of the log size, which the code accepts, a full log is never emptied, through any number of restarts."
  },
  {
   "property": "C69",
   "status": "partial",
   "theorems": [
    "Blobd.Props.C69_every_call_ends",
    "Blobd.Props.C69_why_calls_panic",
    "Blobd.Props.C69_commits_and_deletes_answered_partial",
    "Blobd.Props.C69_never_blocked",
    "Blobd.Props.C69_case",
    "Blobd.Props.C69_violated_by_racing_delete"
   ],
   "note": "C69_every_call_ends: in every fair run every call is answered or panics (tickets of the tuple index always fire, writers leave, pages can be given back). C69_why_calls_panic: the only panics are a create without room and a delete or replacement of a version whose own commit is unanswered. C69_commits_and_deletes_answered_partial: without such overlap all commits and deletes are answered. C69_never_blocked: fairness asks nothing impossible; C69_case a concrete fair run. C69_violated_by_racing_delete: a delete of an object whose commit is visible but not yet in the tuple index panics and is never answered; the object is gone, the commit is answered, and after a restart the object is back."
  },
  {
   "property": "C70",
   "status": "partial",
   "theorems": [
    "Blobd.Props.C70_kv_writes_partial",
    "Blobd.Props.C70_kv_apart_partial",
    "Blobd.Props.C70_kv_reads_partial",
    "Blobd.Props.C70_kv_case",
    "Blobd.Props.C70_kv_read_case",
    "Blobd.Props.C70_direct_writes_partial",
    "Blobd.Props.C70_direct_apart_partial",
    "Blobd.Props.C70_direct_reads_partial",
    "Blobd.Props.C70_direct_blocks",
    "Blobd.Props.C70_direct_case",
    "Blobd.Props.C70_lite_disciplined",
    "Blobd.Props.C70_lite_writes_partial",
    "Blobd.Props.C70_lite_regions",
    "Blobd.Props.C70_lite_apart_partial",
    "Blobd.Props.C70_lite_sources_partial"
   ],
   "note": "C70_kv_writes_partial, C70_kv_apart_partial, C70_kv_reads_partial and their direct counterparts hold in every reachable state in which none of the faults of the other findings has occurred (KV: oversized flush, swallowed bundle panic, heap tuple in replayed log, empty key; direct: PageFaultFree); C70_direct_blocks: the blocks write_object hands to the device are whole pages inside the page and begin with the data. The KV claim is per region, because the regions themselves overlap (C38). C70_kv_case, C70_kv_read_case and C70_direct_case are concrete states with such writes in flight. Lite (no alignment is required there): C70_lite_writes_partial (every write in flight lies in its region), C70_lite_regions, C70_lite_apart_partial (no two share a byte unless they are parts of one upload), C70_lite_sources_partial (no byte changes otherwise, except the list pointer a delete overwrites directly), in every reachable state without the faults of C15. C70_lite_disciplined: nothing excluded under the rule of C15_disciplined."
  },
  {
   "property": "C71",
   "status": "partial",
   "theorems": [
    "Blobd.Props.C71_disciplined",
    "Blobd.Props.C71_every_call_ends_partial",
    "Blobd.Props.C71_why_calls_die",
    "Blobd.Props.C71_answered_partial",
    "Blobd.Props.C71_transactions_acknowledged_partial",
    "Blobd.Props.C71_locks_given_back_partial",
    "Blobd.Props.C71_never_blocked",
    "Blobd.Props.C71_journal_never_blocked",
    "Blobd.Props.C71_case",
    "Blobd.Props.C71_violated_by_cycle"
   ],
   "note": "C71_every_call_ends_partial, C71_answered_partial, C71_transactions_acknowledged_partial, C71_locks_given_back_partial: in every fair run without the lite store's known faults. C71_why_calls_die: in such runs no call panics; it is under way, answered or dropped. C71_never_blocked, C71_journal_never_blocked: fairness asks nothing impossible; C71_case a concrete fair run with contention. C71_violated_by_cycle: after a delete of an object whose predecessor's create is not answered, and another create, the bucket's list is a cycle; a lookup follows it for ever holding the bucket's lock, so nothing in the bucket can change any more. C71_disciplined: nothing excluded under the rule of C15_disciplined."
  },
  {
   "property": "C72",
   "status": "partial",
   "theorems": [
    "Blobd.Props.C72_acked_parts_hold_uploaded_bytes_partial",
    "Blobd.Props.C72_every_byte_uploaded_partial",
    "Blobd.Props.C72_read_partial",
    "Blobd.Props.C72_get_partial",
    "Blobd.Props.C72_round_trip_partial",
    "Blobd.Props.C72_violated_stale_bytes"
   ],
   "note": "C72_acked_parts_hold_uploaded_bytes_partial: the bytes of every acknowledged part are uploaded bytes. C72_every_byte_uploaded_partial, C72_read_partial, C72_get_partial, C72_round_trip_partial: all bytes of every object in use (visible, or being removed while reads go on), in any number of partitions, and all bytes of every GET, if the commit request carried the upload token handed out for the upload, or the object has one part. C72_violated_stale_bytes: a client that may create, write and commit only its own key commits with a write receipt in the place of the upload token and reads the bytes of a deleted object. Assumes clients and crashes keep to the rules of C29 (no overlapping changes of one key, metadata within two small pages, device writes not cancelled, no crash while a replacing commit is unanswered) and an unforgeable MAC. C72_get and C72_round_trip take a GET at one moment; C72_read covers each page of a longer read at its own moment."
  },
  {
   "property": "C73",
   "status": "partial",
   "theorems": [
    "Blobd.Props.C73_all_done_means_tested_partial",
    "Blobd.Props.C73_keys_distinct",
    "Blobd.Props.C73_wrong_bytes_caught",
    "Blobd.Props.C73_no_false_alarm",
    "Blobd.Props.C73_every_run_ends",
    "Blobd.Props.C73_finishes",
    "Blobd.Props.C73_completes",
    "Blobd.Props.C73_violated_failure_hangs",
    "Blobd.Props.C73_violated_failure_hangs_witness",
    "Blobd.Props.C73_violated_no_workers",
    "Blobd.Props.C73_violated_no_objects",
    "Blobd.Props.C73_sizes_tried",
    "Blobd.Props.C73_violated_key_too_long"
   ],
   "note": "C73_all_done_means_tested_partial (for at least one worker), C73_keys_distinct, C73_wrong_bytes_caught, C73_no_false_alarm, C73_every_run_ends, C73_finishes, C73_completes, C73_sizes_tried. C73_violated_failure_hangs: once a worker has failed no worker ever exits, so unless it is the first one the tester hangs instead of failing. C73_violated_no_workers: with concurrency 0 it prints all done untested. C73_violated_no_objects: with no objects it never ends. C73_violated_key_too_long: keys exceed object_key_len_max. The channel is modelled as a set from which any task may be taken; hashes are arbitrary functions of the object number; a call takes effect in a correct store when it is answered."
  },
  {
   "property": "C74",
   "status": "partial",
   "theorems": [
    "Blobd.Props.C74_read_exact",
    "Blobd.Props.C74_read_changes_nothing",
    "Blobd.Props.C74_write_exact",
    "Blobd.Props.C74_windows_apart",
    "Blobd.Props.C74_answered_partial",
    "Blobd.Props.C74_violated_too_long",
    "Blobd.Props.C74_direct_format",
    "Blobd.Props.C74_direct_format_answered",
    "Blobd.Props.C74_direct_load_partial",
    "Blobd.Props.C74_violated_direct_big_area",
    "Blobd.Props.C74_violated_direct_big_area_witness",
    "Blobd.Props.C74_kv_areas_partial",
    "Blobd.Props.C74_violated_kv_big_pages",
    "Blobd.Props.C74_violated_wrap",
    "Blobd.Props.C74_windows_case",
    "Blobd.Props.C74_mock_flat",
    "Blobd.Props.C74_mock_eq",
    "Blobd.Props.C74_violated_mock_eq"
   ],
   "note": "C74_read_exact, C74_read_changes_nothing, C74_write_exact, C74_windows_apart, C74_answered_partial, C74_direct_format, C74_direct_format_answered, C74_direct_load_partial, C74_kv_areas_partial, C74_mock_flat, C74_mock_eq. Violated: C74_violated_direct_big_area (a direct partition whose tuple area exceeds 2 GiB - 4 KiB can be formatted but never opened), C74_violated_kv_big_pages (KV with pages of 8 KiB or more and a bundle area of 2 GiB or more), both instances of C74_violated_too_long; C74_violated_wrap (bounds checks wrap; no caller does that); C74_violated_mock_eq (comparing test devices). The limit of one transfer, 0x7ffff000 bytes, is Linux's and is assumed for the constant URING_LEN_MAX of a crate that is not part of the repository."
  },
  {
   "property": "C75",
   "status": "partial",
   "theorems": [
    "Blobd.Props.C75_direct_ops",
    "Blobd.Props.C75_direct_objects_partial",
    "Blobd.Props.C75_direct_counts",
    "Blobd.Props.C75_direct_defined",
    "Blobd.Props.C75_direct_in_progress_partial",
    "Blobd.Props.C75_direct_case",
    "Blobd.Props.C75_violated_wrap",
    "Blobd.Props.C75_violated_panic",
    "Blobd.Props.C75_violated_duplicate",
    "Blobd.Props.C75_kv_defined",
    "Blobd.Props.C75_kv_ops",
    "Blobd.Props.C75_kv_ops_idle",
    "Blobd.Props.C75_kv_committed_partial",
    "Blobd.Props.C75_kv_objects_partial",
    "Blobd.Props.C75_kv_bytes_partial",
    "Blobd.Props.C75_kv_restart",
    "Blobd.Props.C75_violated_kv_leak",
    "Blobd.Props.C75_violated_kv_overflow",
    "Blobd.Props.C75_lite_disciplined",
    "Blobd.Props.C75_lite_in_progress_partial",
    "Blobd.Props.C75_lite_objects_partial",
    "Blobd.Props.C75_lite_sequential",
    "Blobd.Props.C75_lite_defined",
    "Blobd.Props.C75_lite_case",
    "Blobd.Props.C75_violated_lite_incomplete",
    "Blobd.Props.C75_violated_lite_incomplete_always",
    "Blobd.Props.C75_violated_lite_metadata"
   ],
   "note": "Direct store: C75_direct_ops, C75_direct_objects_partial (a start that found two versions of one key excluded for bytes), C75_direct_counts, C75_direct_in_progress_partial (no call panicked), C75_direct_defined, C75_direct_case. Violated: C75_violated_wrap (a delete answers before the commit of its object: 2^64-1 committed objects are shown), C75_violated_panic (after the panic of finding 24 the counters stay wrong), C75_violated_duplicate (a start that finds two versions of a key counts the bytes of both). Lite store: C75_lite_objects_partial and C75_lite_in_progress_partial (objects and data bytes; executions without the faults of C15), C75_lite_sequential, C75_lite_defined, C75_lite_case. Violated: C75_violated_lite_incomplete(_always) (the counter of incomplete objects never changes after opening), C75_violated_lite_metadata (creates add the length, deletes subtract the page size: shows almost 2^64). KV store: C75_kv_ops, C75_kv_ops_idle, C75_kv_objects_partial, C75_kv_committed_partial and C75_kv_bytes_partial (executions without the faults of C34; bytes exact if no large value was overwritten or deleted before a background commit took it up, or after a restart: C75_kv_restart), C75_kv_defined. Violated: C75_violated_kv_leak, C75_violated_kv_overflow (after the swallowed panic of C34 the count stays wrong). Byte counters of reads and writes: C77. Not modelled: the lite counters after a restart (C64: what a restart visits is wrong in the first place). C75_lite_disciplined: objects and data bytes, nothing excluded under the rule of C15_disciplined."
  },
  {
   "property": "C76",
   "status": "partial",
   "theorems": [
    "Blobd.Props.C76_reported_partial",
    "Blobd.Props.C76_writes_whole",
    "Blobd.Props.C76_concurrency",
    "Blobd.Props.C76_no_false_alarm",
    "Blobd.Props.C76_goes_on",
    "Blobd.Props.C76_every_run_ends",
    "Blobd.Props.C76_leaves",
    "Blobd.Props.C76_completes",
    "Blobd.Props.C76_percentiles",
    "Blobd.Props.C76_violated_void_store",
    "Blobd.Props.C76_violated_skip_creation",
    "Blobd.Props.C76_case"
   ],
   "note": "C76_reported_partial (any store; what was read was right as far as it went), C76_writes_whole, C76_concurrency, C76_no_false_alarm, C76_goes_on, C76_every_run_ends, C76_completes, C76_leaves, C76_percentiles (up to 2^45 latencies), C76_case. Violated: C76_violated_void_store (a store that returns no bytes and reports size 0 passes, whatever is configured), C76_violated_skip_creation (a run that skips creation never completes against a correct store, since the pool is drawn afresh). Not modelled: times, averages, system metrics, time to first byte."
  },
  {
   "property": "C77",
   "status": "partial",
   "theorems": [
    "Blobd.Props.C77_direct_read_counted",
    "Blobd.Props.C77_direct_read_amplification",
    "Blobd.Props.C77_direct_read_same",
    "Blobd.Props.C77_direct_write_counted",
    "Blobd.Props.C77_direct_write_success",
    "Blobd.Props.C77_direct_write_same",
    "Blobd.Props.C77_violated_direct_failed_write",
    "Blobd.Props.C77_kv_same",
    "Blobd.Props.C77_kv_read_counted",
    "Blobd.Props.C77_kv_write_counted"
   ],
   "note": "Direct: C77_direct_read_counted, C77_direct_read_amplification (a read whose object is deleted under it leaves at most one buffer of device bytes unaccounted), C77_direct_read_same and C77_direct_write_same (the counted functions are those of C18/C20), C77_direct_write_counted, C77_direct_write_success. KV: C77_kv_read_counted, C77_kv_write_counted, C77_kv_same. Violated: C77_violated_direct_failed_write (a write whose body breaks off at once is counted with its whole length). Missing: the lite store (it has no such counters), background moves of the KV store."
  },
  {
   "property": "C78",
   "status": "partial",
   "theorems": [
    "Blobd.Props.C78_direct_pages",
    "Blobd.Props.C78_direct_create_accepted",
    "Blobd.Props.C78_direct_creates_accepted",
    "Blobd.Props.C78_direct_free_pages",
    "Blobd.Props.C78_direct_slots",
    "Blobd.Props.C78_direct_condition_needed",
    "Blobd.Props.C78_direct_case",
    "Blobd.Props.C78_lite_disciplined",
    "Blobd.Props.C78_lite_pages",
    "Blobd.Props.C78_lite_create_accepted",
    "Blobd.Props.C78_lite_free_pages_partial",
    "Blobd.Props.C78_lite_condition_needed",
    "Blobd.Props.C78_lite_case"
   ],
   "note": "Direct: C78_direct_pages (pages are found), C78_direct_create_accepted (one create beside any commits, deletes, reads, writes), C78_direct_creates_accepted (several creates at once), C78_direct_free_pages (what counts as free at rest: all that no visible object or open upload touches), C78_direct_slots (after a start a slot is known iff there are fewer tuples than slots). Lite: C78_lite_pages, C78_lite_create_accepted (any other calls, creates included), C78_lite_free_pages_partial. The conditions are needed: C78_direct_condition_needed, C78_lite_condition_needed. Missing: executions with the faults of C27/C15; while the direct store runs, a slot freed in a full bundle is forgotten (C26), so SlotKnown can fail with slots free; the KV store (there a write with room in the heap is prepared by C66_space_exact_partial and answered by C68_answered_if_fits). C78_lite_disciplined: C78_lite_create_accepted under the usage rule instead of absence of faults."
  },
  {
   "property": "C79",
   "status": "partial",
   "theorems": [
    "Blobd.Props.C79_rust_request_exact",
    "Blobd.Props.C79_rust_request",
    "Blobd.Props.C79_rust_calls",
    "Blobd.Props.C79_violated_rust_streamed_write",
    "Blobd.Props.C79_violated_end_without_start",
    "Blobd.Props.C79_violated_rust_empty_key",
    "Blobd.Props.C79_presigned",
    "Blobd.Props.C79_js_request",
    "Blobd.Props.C79_js_calls",
    "Blobd.Props.C79_violated_js_streamed_write",
    "Blobd.Props.C79_violated_js_cross_origin",
    "Blobd.Props.C79_violated_js_size_rounded",
    "Blobd.Props.C79_server_reads",
    "Blobd.Props.C79_server_refuses"
   ],
   "note": "Rust: C79_rust_request_exact (the request is understood as meant exactly if the key does not vanish in the URL and its query part names none of the method's own parameters), C79_rust_request, C79_rust_calls (what each method does and returns, for keys that survive the URL: C50), C79_presigned. JavaScript: C79_js_request (any key that does not vanish), C79_js_calls (authentication off, same origin, sizes below 2^53). Server: C79_server_reads (a request is acted on exactly if it has the method, path and exactly one of each parameter that the endpoint needs, numbers in decimal below 2^64, and then as it says), C79_server_refuses (any other request is refused and the store not asked). The code does not have the rest of the property: C79_violated_rust_streamed_write, C79_violated_js_streamed_write (bodies without known length are refused), C79_violated_end_without_start (an end without a start is ignored and the whole object returned), C79_violated_rust_empty_key, C79_violated_js_cross_origin (the token headers cannot be read by a page of another origin), C79_violated_js_size_rounded; keys that change in the URL are C50's, refused signatures of the JavaScript client C53's."
  },
  {
   "property": "C80",
   "status": "partial",
   "theorems": [
    "Blobd.Props.C80_disciplined",
    "Blobd.Props.C80_acked_parts_partial",
    "Blobd.Props.C80_contents_partial",
    "Blobd.Props.C80_read_partial",
    "Blobd.Props.C80_sequential"
   ],
   "note": "One call at a time nothing is missing: C80_sequential. For overlapping calls C80_acked_parts_partial (one part), C80_contents_partial (the whole object), C80_read_partial (reads), for executions without the faults of C15 and without calls dropped during a device write; with such a drop the code does not have the property (C52_violated_by_dropped_write: the late write overwrites another object). Crash and reopen are C64/C65's. C80_disciplined: nothing excluded under the rule of C15_disciplined."
  },
  {
   "property": "C81",
   "status": "partial",
   "theorems": [
    "Blobd.Props.C81_lite_disciplined",
    "Blobd.Props.C81_lite_valid_partial",
    "Blobd.Props.C81_lite_once_partial",
    "Blobd.Props.C81_lite_sequential",
    "Blobd.Props.C81_violated_by_stale_copy",
    "Blobd.Props.C81_direct_valid",
    "Blobd.Props.C81_direct_once",
    "Blobd.Props.C81_direct_restart_partial"
   ],
   "note": "Direct store: C81_direct_valid and C81_direct_once hold for every schedule and history; C81_direct_restart_partial (an upload with an answered commit is not there again after a crash) excludes the faults of C28. Lite: one call at a time nothing is missing (C81_lite_sequential); overlapping calls C81_lite_valid_partial, C81_lite_once_partial, for executions without the faults of C15; with a stale copy the code does not have the property: C81_violated_by_stale_copy. Reopening the lite store is C64/C65's. C81_lite_disciplined: nothing excluded under the rule of C15_disciplined."
  },
  {
   "property": "C82",
   "status": "partial",
   "theorems": [
    "Blobd.Props.C82_file_names",
    "Blobd.Props.C82_only_results",
    "Blobd.Props.C82_groups",
    "Blobd.Props.C82_script_partial",
    "Blobd.Props.C82_strings",
    "Blobd.Props.C82_violated_secret",
    "Blobd.Props.C82_violated_script"
   ],
   "note": "Names and grouping: C82_file_names, C82_only_results, C82_groups, for all. The page: C82_strings for all strings, C82_script_partial for all texts without `</script` and `<!--`; with them the code does not have the property (C82_violated_script). C82_violated_secret: every page with results of an S3 benchmark has its secret key in it. Reading the JSON files back into records (serde) and the charts are not modelled."
  },
  {
   "property": "C83",
   "status": "partial",
   "theorems": [
    "Blobd.Props.C83_copies_partial",
    "Blobd.Props.C83_answer",
    "Blobd.Props.C83_printed_uploaded_partial",
    "Blobd.Props.C83_round_trip_partial",
    "Blobd.Props.C83_put_then_get_partial",
    "Blobd.Props.C83_violated_output",
    "Blobd.Props.C83_violated_end"
   ],
   "note": "C83_answer: the server's answer exactly, for all ranges; C83_printed_uploaded_partial, C83_round_trip_partial and C83_put_then_get_partial (blobc put, then blobc get): what is printed, if each write to standard output happens before the next is handed over and none is dropped at exit; C83_copies_partial: what is left without that. The code does not ensure it: C83_violated_output (output lost or out of order with status 0). C83_violated_end: `--end` is inclusive, and the largest number wraps to 0. blobc does not type-check at this commit (`u64` passed for `Option<u64>`); the model reads it as `Some(start)`."
  },
  {
   "property": "C84",
   "status": "partial",
   "theorems": [
    "Blobd.Props.C84_honest",
    "Blobd.Props.C84_shows_all_partial",
    "Blobd.Props.C84_any_order_partial",
    "Blobd.Props.C84_direct_is_one",
    "Blobd.Props.C84_random_bytes",
    "Blobd.Props.C84_violated_one_per_size",
    "Blobd.Props.C84_violated_order",
    "Blobd.Props.C84_labels_partial",
    "Blobd.Props.C84_violated_label"
   ],
   "note": "C84_honest: every point is the value of a run with that size, for all files; C84_shows_all_partial and C84_any_order_partial: exactly the runs, in any order of the files, if there is at most one run for each benchmark and size and all runs of a benchmark are of one kind of store; C84_direct_is_one, C84_random_bytes. Violated: C84_violated_one_per_size (of two runs with the same size and other numbers of objects, only one is shown), C84_violated_order (which one depends on the directory's order), C84_violated_label. Exact numbers instead of doubles; colours, axes and formatting are left out."
  },
  {
   "property": "C85",
   "status": "partial",
   "theorems": [
    "Blobd.Props.C85_kept",
    "Blobd.Props.C85_latest_partial",
    "Blobd.Props.C85_kept_after_crash",
    "Blobd.Props.C85_off",
    "Blobd.Props.C85_violated_latest",
    "Blobd.Props.C85_violated_server"
   ],
   "note": "Lite: C85_kept (no lookup misses a committed version that was not deleted, or finds anything else), C85_latest_partial (the last one is found if versions are committed in the order they were created), C85_off. Violated: C85_violated_latest (of two uploads, the one created later stays the current version although the other is committed after it), C85_violated_server (the server reads the setting and ignores it: no earlier version is ever found). Missing for lite: overlapping changes of one bucket, where C15 fails. C85_kept_after_crash: the same after a crash at any moment and a restart, when the changes of the bucket were answered."
  },
  {
   "property": "C86",
   "status": "partial",
   "theorems": [
    "Blobd.Props.C86_size",
    "Blobd.Props.C86_storage",
    "Blobd.Props.C86_rate",
    "Blobd.Props.C86_time_partial",
    "Blobd.Props.C86_ratio",
    "Blobd.Props.C86_ops",
    "Blobd.Props.C86_marks",
    "Blobd.Props.C86_hover_partial",
    "Blobd.Props.C86_axis",
    "Blobd.Props.C86_violated_count",
    "Blobd.Props.C86_violated_latency"
   ],
   "note": "For all values: C86_size, C86_storage, C86_rate, C86_ratio, C86_ops, C86_time_partial (what each text says, and how near it is), C86_marks and C86_axis (the marks span the values and each says its place, to within the rounding), C86_hover_partial (the text over a point). Violated: C86_violated_count (total numbers of disk operations are shown as op/s), C86_violated_latency (latencies below 50 ms: all marks of the axis say 0.0s). Missing: the rounding of doubles, texts that Plotly writes, the logarithmic horizontal axis."
  },
  {
   "property": "C87",
   "status": "partial",
   "theorems": [
    "Blobd.Props.C87_counted",
    "Blobd.Props.C87_bytes_written",
    "Blobd.Props.C87_data_bytes",
    "Blobd.Props.C87_sizes_partial",
    "Blobd.Props.C87_violated_large_flush",
    "Blobd.Props.C87_violated_large_page"
   ],
   "note": "C87_counted, C87_bytes_written (data and padding are exactly the bytes written, but for one page at each new round of the log), C87_data_bytes (exactly the entries and one marker byte for each flush that does not end with a page), C87_sizes_partial (the classes are exact for pages of at most 4 KiB). Violated: C87_violated_large_flush (flushes of more than 8 MiB are in no class), C87_violated_large_page (with larger pages a flush of exactly 4 KiB is counted in the next class: the marker byte counts). Missing: the counters of times and of background commits."
  },
  {
   "property": "C88",
   "status": "partial",
   "theorems": [
    "Blobd.Props.C88_since_opened",
    "Blobd.Props.C88_entries_partial",
    "Blobd.Props.C88_entries_disciplined",
    "Blobd.Props.C88_all_steps",
    "Blobd.Props.C88_all_states"
   ],
   "note": "C88_since_opened: in every execution, faults or not, the counters are the entries replayed when the store was opened and the requests acknowledged since. C88_entries_partial: the replayed entries are those of the last requests before, in every execution without one of the recorded faults (a panicked bundle update, a restart over heap tuples in the log, an oversized flush) and without the empty key; C88_entries_disciplined: without these exclusions for a client within API-level limits (see C34). C88_all_steps and C88_all_states: every step and state of an execution has its counters. Counters do not wrap in the model (64 bits in the code); an entry is applied, counted and acknowledged in one step."
  },
  {
   "property": "C89",
   "status": "partial",
   "theorems": [
    "Blobd.Props.C89_commits",
    "Blobd.Props.C89_entries_partial",
    "Blobd.Props.C89_entries_disciplined",
    "Blobd.Props.C89_bundles",
    "Blobd.Props.C89_moves_partial",
    "Blobd.Props.C89_all_steps",
    "Blobd.Props.C89_loss_shows"
   ],
   "note": "C89_commits, C89_bundles (with C89_loss_shows when updates were lost) and C89_all_steps hold in every execution; C89_entries_partial without the recorded faults and the empty key, C89_entries_disciplined without these exclusions for a client within API-level limits (see C34). C89_loss_shows: the swallowed panic of finding C34 can be seen in these counters from then on. C89_moves_partial (same exclusions): values moved to the heap and their bytes. Missing: the counters of times."
  }
 ]
}