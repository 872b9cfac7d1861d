{
 "C01": [
  "proved",
  "C01_lpage32_panics records the panic of the code at lpage=2^32."
 ],
 "C02": [
  "proved",
  ""
 ],
 "C03": [
  "proved",
  ""
 ],
 "C04": [
  "proved",
  ""
 ],
 "C05": [
  "proved",
  ""
 ],
 "C06": [
  "proved",
  ""
 ],
 "C07": [
  "proved",
  ""
 ],
 "C08": [
  "partial",
  "Conservation of bytes is proved. The metric half is false of the code after a failed allocation: C08_metric_wrong_after_failure is the witness, C08_metric_partial the histories without failure."
 ],
 "C09": [
  "proved",
  ""
 ],
 "C10": [
  "partial",
  "Space half proved; the used-space metric half is false of the code: C10_metric_never_decreases."
 ],
 "C11": [
  "proved",
  ""
 ],
 "C12": [
  "proved",
  ""
 ],
 "C13": [
  "proved",
  ""
 ],
 "C14": [
  "proved",
  ""
 ],
 "C17": [
  "partial",
  "False of the code on the start-up path (shift in the wrong direction): C17_violated_at_startup; the run-time path is C17_head_roundtrip_partial."
 ],
 "C18": [
  "proved",
  "For a stream buffer size of 0 the direct stream never ends (C18_direct_zero_buffer_never_ends); the theorems take a positive buffer size."
 ],
 "C19": [
  "proved",
  ""
 ],
 "C20": [
  "proved",
  ""
 ],
 "C21": [
  "proved",
  ""
 ],
 "C22": [
  "partial",
  "False of the code when the body is shorter than declared (lite) or has an empty chunk; witnesses C22_violated_*; C22_chunking_irrelevant_partial covers the rest."
 ],
 "C23": [
  "proved",
  ""
 ],
 "C24": [
  "proved",
  ""
 ],
 "C25": [
  "proved",
  ""
 ],
 "C26": [
  "partial",
  "False of the code: slots of a bundle that filled up are never offered again, C26_violated_slots_lost."
 ],
 "C30": [
  "partial",
  "Lite: the recorded size is what was allocated. Direct: false when metadata exceeds the small page (C30_violated_large_metadata, C30_violated_concrete); C30_small_metadata_partial covers the rest."
 ],
 "C31": [
  "proved",
  ""
 ],
 "C32": [
  "proved",
  ""
 ],
 "C33": [
  "partial",
  "Proved for every list of tuples with non-empty keys; false of the code for the empty key, which write_object accepts (C33_violated_empty_key)."
 ],
 "C36": [
  "partial",
  "Proved for rings that are a multiple of the small page and flushes no longer than the replay buffer; false otherwise (C36_violated_unaligned_ring, C36_violated_gap_exceeds_buffer)."
 ],
 "C37": [
  "proved",
  "For rings that are a multiple of the small page."
 ],
 "C38": [
  "partial",
  "False of the code: the heap region computed by every accepted configuration overlaps the log region (C38_violated_*). C38_kv_regions_partial is what holds."
 ],
 "C39": [
  "partial",
  "The regions are disjoint; the heap may run past the device end (C39_violated_heap_past_device_end; C39_heap_inside_iff is the exact condition)."
 ],
 "C40": [
  "proved",
  ""
 ],
 "C41": [
  "partial",
  "Tokens: accepted exactly when issued for the action and unexpired, and every endpoint demands it (proved, under MAC unforgeability). Upload tokens are not bound to a key, so a commit or write token for one key acts on an upload of another: C41_violated_upload_not_bound_to_key."
 ],
 "C42": [
  "partial",
  "False of the code: a write receipt can be presented as an upload token for a smaller object (C42_violated_commit_with_missing_parts). C42_all_parts_acked_partial proves the claim when the commit carries the upload token returned by create, or the object has one part, and describes exactly what is possible otherwise."
 ],
 "C43": [
  "proved",
  "Both clients. C43_violated_excess_data_becomes_objects shows what happens outside the statement, when the declared size is smaller than the data."
 ],
 "C44": [
  "partial",
  "Bounded and open ranges exact, other parsed ranges refused, unparseable headers ignored; false of the code for suffix ranges, empty ranges, the last u64, the JavaScript client with end 0 (C44_violated_*); the Rust client treats end as inclusive, the JavaScript client as exclusive."
 ],
 "C45": [
  "proved",
  ""
 ],
 "C46": [
  "partial",
  "Success statuses only on success (outside batch), error classes exact; four errors share 416 and batch always answers 200 (C46_violated_errors_share_status)."
 ],
 "C47": [
  "proved",
  ""
 ],
 "C48": [
  "partial",
  "False of the code: journal recovery is not implemented (C48_violated_recovery_loses_atomicity). C48_journal_record_suffices_partial shows the journal record is sufficient to recover."
 ],
 "C50": [
  "partial",
  "Exact for both clients. Rust: survives iff no trailing space, no ?, #, backslash, no dot segment, no %hh (C50_rust_survives_iff); C50_rust_exact says what every other key becomes. JavaScript: only dot segments are changed (C50_js_survives_iff). The full property is false of the code (C50_violated). C50_any_spelling and C50_stray_percent: the server takes every percent-spelling of a key (either hex case, any bytes escaped) for that key."
 ],
 "C34": [
  "partial",
  "False of the code: when a bundle outgrows its page the commit task panics, the panic is swallowed and acknowledged writes vanish (C34_violated_bundle_overflow). Proved for every execution without that event, without restarting over heap tuples in the log, without flushes longer than the replay buffer, and with non-empty keys, including reads spread over time. C34_disciplined* remove the event hypotheses for a client that stays within API-level limits (existing keys fit their bundle page, calls under way smaller than the replay buffer, only inline-size values before a restart, no empty key)."
 ],
 "C35": [
  "partial",
  "False of the code: restart does not reserve the heap space of tuples replayed from the log (C35_violated_heap_tuple_in_log), and bundle overflow loses data (C34_violated_bundle_overflow). Proved for every crash point of all other executions. C35_disciplined: full claim for a client within API-level limits (see C34)."
 ],
 "C49": [
  "partial",
  "False in KV, direct and lite when the object is deleted during the read (C49_kv_violated, C49_direct_violated, C49_lite_violated); proved when the key is not written (KV), the object is visible or its deletion unanswered (direct), or it is listed and committed or its pages not yet released (lite) during the read. C49_lite_disciplined_partial: the same in lite for every execution under the usage rule, with no hypothesis on faults."
 ],
 "C27": [
  "proved",
  "Linearizability of one partition under all interleavings of calls, device writes, background tuple commits, crashes and restarts; each visible object is visible from its commit until the next commit or delete of that key took effect; if_not_exists; answers explained by events inside the call; ids never repeat (random 128-bit ids assumed fresh)."
 ],
 "C29": [
  "partial",
  "Violated by the code (two theorems C29_violated_*: replaced object skipped at start-up keeps its tuple while its pages are free; a dropped write_object completes after the page was reused). Proved for every reachable state without these two events and without the oversized-metadata case of C30: metadata intact, pages disjoint and not free while referenced, restart succeeds in every order. Also for all executions of well-behaved clients, described by the history only (Spec/DirectDiscipline, Props/DirectDiscipline)."
 ],
 "C51": [
  "partial",
  "Proved for every reachable state and step when no write_object call was dropped mid-write, no restart found two committed objects with one key and no oversized metadata (C30); C29_violated_by_dropped_write shows the first exclusion is needed. Also for all executions of well-behaved clients, described by the history only (Spec/DirectDiscipline, Props/DirectDiscipline)."
 ],
 "C28": [
  "partial",
  "Violated by the code (two theorems C28_violated_*): (1) start-up finds two committed objects with one key (crash while a replaced object's tuple was being deleted), keeps the newer one in memory but leaves the older tuple on disk, and it reappears after the newer one is deleted and acknowledged; (2) two overlapping commits of one key can finish with the acknowledged winner having the smaller id, and the loader keeps the larger id. Proved for every reachable crash point without those events (and without the page faults of C29): restart succeeds in every scan order; every acknowledged commit/delete/create not superseded afterwards is there; each key shows its last effect or, only if a call was unanswered, the value just before that call's effect; a commit never leaves both the committed and the incomplete object. The C28_disciplined_* theorems replace the excluded events by conditions on the history only (Spec/DirectDiscipline: one commit/delete per key at a time, no dropped write, metadata of at most two small pages, earlier crashes not in the middle of a replacing commit); C28_disciplined_forever_partial: once answered, a key keeps its object and bytes through any number of crashes and restarts until a commit or delete of it takes effect."
 ],
 "C15": [
  "partial",
  "Proved in full for executions in which calls do not overlap (C15_sequential*). For overlapping calls, proved when none of the excluded events happened: a stale copy of a record, a pointer or inode with a pending journal write used by a deletion or commit, a dropped write. C15_violated_by_stale_copy, _pending_pointer and _pending_commit show the code breaks the claim when they do. C15_disciplined: nothing is excluded when the callers keep changes of a bucket apart (calls of different buckets overlapping freely, inspects/reads/writes of one bucket too, but no other call of a bucket while a create, commit or delete of it runs, and no write dropped during a device write (Spec/LiteApart)): none of the excluded events can happen then (C15_disciplined_faultless)."
 ],
 "C16": [
  "partial",
  "Proved in full for executions in which calls do not overlap (C16_*_sequential); for overlapping calls with the exclusions of C15. C16_violated_by_pending_pointer: deleting an object while an object in front of it is being created leaves it in the list. C16_lists_disciplined, C16_unlink_disciplined: nothing excluded under the rule of C15_disciplined."
 ],
 "C52": [
  "partial",
  "Proved for every reachable state and step with the exclusions of C15, including every sequential execution; C52_violated_by_dropped_write shows a dropped write_object call overwrites another object. C52_disciplined: nothing excluded under the rule of C15_disciplined."
 ],
 "C53": [
  "partial",
  "Rust client: exact (C53_rust_authorized_iff, C53_rust_calls: authorised iff the key survives C50). JavaScript client: false of the code for every token (it authenticates a map, the server an array): C53_violated_js_*. The JS library's own verifier is exact (C53_js_verify_partial)."
 ],
 "C54": [
  "partial",
  "Proved end to end (tokens, requests, concurrent writers on the device, receipts, commit, read) when the large page is 16 MiB or the file fits one tile and one page; C54_put_accepted_iff shows these are exactly the cases in which the writes are accepted; false of the code otherwise (C54_violated_other_page_size)."
 ],
 "C55": [
  "partial",
  "False of the code: absolute paths and \".\" abort before the first file, other relative paths skip every file, and success is reported whatever the server created (C55_violated_*). Proved for lists of files by absolute path (C55_files_uploaded_partial)."
 ],
 "C56": [
  "partial",
  "Proved for every reachable state in which all calls were answered and none of the C29 events happened (exact characterisation of what can be allocated, bytes, empty store, every restart). Violated by the code otherwise: a create that runs out of space keeps the pages it got (C56_violated_by_failed_create: one such call fills an empty store until the next restart). Also for all executions of well-behaved clients, described by the history only (Spec/DirectDiscipline, Props/DirectDiscipline)."
 ],
 "C57": [
  "partial",
  "False of the code: the configured time is never read. C57_violated_*: for every execution and any number of restarts an upload stays, with its pages, until it is committed."
 ],
 "C58": [
  "partial",
  "Proved for every number of partitions and hash: linearizability of the whole store, list_objects (at one moment), restart; under the conditions of C28/C29 in each partition. Adding a partition makes committed objects unreachable (C58_violated_by_added_partition)."
 ],
 "C59": [
  "partial",
  "Upper bound in every execution; without deletes since the last start a create fails exactly when all slots are taken, and a sufficient size is proved. Second half false: 20 bytes per object are reserved, 24 are needed, C59_violated_* (for every configuration with parts*large page <= 4*objects). With deletes, slots are lost (C26)."
 ],
 "C60": [
  "partial",
  "Exact for RocksDB and KV; for the file system and S3 only to the end of the object (or, file system, if the first read fills the buffer). C60_violated_*: file-system reads that end earlier panic after a short read; past the end they never finish; S3 returns one byte too many for every range that ends inside the object. Direct: exact, panics outside the object. Lite: exact for non-empty ranges; C60_violated_lite_empty: empty ranges and empty objects panic."
 ],
 "C61": [
  "partial",
  "Contents exact for S3 (non-empty objects) and the file system, for every order of the writes. C61_violated_*: the file system destroys the old object at create, RocksDB (and KV, whose create and commit do nothing either) shows the new one at the write, empty objects fail to commit (S3) or never appear (RocksDB, KV). Direct and lite: exact for every order of the pieces (visibility at commit: C27, C15). KV: exact up to 16 MiB; C61_violated_kv_*: visible before commit, empty objects vanish, larger ones panic."
 ],
 "C62": [
  "partial",
  "Partial: for polite clients and crashes that do not hit a replacing commit (Spec/DirectDiscipline; C28, C29 show the store breaks otherwise). C62_unwritten_upload_shows_old_bytes: an upload committed without writing shows bytes of deleted objects."
 ],
 "C63": [
  "proved",
  "axum's extraction of path, query and headers is by contract."
 ],
 "C64": [
  "partial",
  "Proved: with no call running all changes are on the device and its lists are the abstract store; calls after reopening that use no allocator (lookup, read, write, commit) go on as if there had been no restart; an empty store reopens exactly like a new one; whatever is on the device, the space startup takes for used is exactly the content pages of the inodes it comes across, and nothing allocated later touches them (C64_load_exact_partial, C64_load_keeps_contents_partial). C64_violated_never_opens: for every store with an object whose startup address off/65536 lies in the slot of an empty bucket, opening panics (wrong shift in load_buckets). C64_violated_pages_reused: where opening succeeds by accident, the pages are not marked as used and a new object overwrites an old one. C64_disciplined_partial: under the usage rule the first part needs no hypothesis on faults."
 ],
 "C65": [
  "partial",
  "Proved for calls one at a time at every crash point outside two windows (C65_crash_partial); a commit that replaces nothing, or any commit with versioning, is atomic at every crash point (C65_commit_atomic). For overlapping calls in any interleaving and every crash point: a bucket all of whose changes have been answered is on the device as answered, whatever goes on in other buckets (C65_quiet_bucket_partial), and after the restart every inspect of its keys is answered accordingly (C65_quiet_lookup_partial); when its only unanswered changes are commits that replaced nothing, it is on the device as answered but for some of these commits, each of which has happened entirely or not at all (C65_pending_commits_partial, C65_pending_commits_lookup_partial). Missing: the windows (C65_violated_create_half_applied, C65_violated_replacing_commit show the code breaks the claim there), buckets with other unanswered changes under overlapping calls, torn direct pointer writes, and that opening succeeds at all (C64). C65_disciplined_lookup, C65_disciplined_commit: under the rule of C15_disciplined no fault is excluded, and a bucket being committed to is left with or without that commit. In general (C65_disciplined_crash_partial, C65_disciplined_crash_lookup_partial): outside these two windows every bucket is, after the crash, as after everything that happened or as before its last change, which then was not answered. C65_disciplined_create_partial, C65_disciplined_create_lookup_partial: a bucket in which a create is pending is left with or without the new object, and with everything else, unless the journal is in the middle of writing to places (the violated window). C65_disciplined_delete_partial, C65_disciplined_delete_lookup_partial: likewise a bucket in which a delete is pending, with or without the deleted object."
 ],
 "C66": [
  "partial",
  "Proved for every execution in which no large value is overwritten or deleted before a background commit has taken it up (C66_space_exact_partial, C66_empty_store_partial), so always for values kept in the log (C66_only_small, C66_disciplined) and after every restart at rest (C66_restart_reclaims). C66_violated_leak: a large value deleted before it is committed leaks its space until restart; one such value can fill the heap. C66_violated_stuck: with a committed value filling the heap, deleting it and writing eight bytes elsewhere leaves the store stuck for good, across restarts: the commit allocates before it releases. Excluded: the faults of C34 and the empty key."
 ],
 "C67": [
  "partial",
  "Proved for all concurrent executions without a failed create (C67_no_hidden_use_partial, C67_space_exact_partial, C67_empty_store_partial; faults of C15 excluded, none for sequential calls: C67_sequential_partial). C67_violated_by_failed_create: a create the heap has no room for keeps the pages it got, so one request can fill the store. C67_incomplete_never_freed / C67_violated_by_abandoned: an incomplete object stays listed for ever unless committed; reap_incomplete_objects_after_secs is never read. C67_disciplined_partial: under the rule of C15_disciplined only failed creates are excluded."
 ],
 "C68": [
  "partial",
  "Proved by liveness arguments over infinite fair runs: all calls answered while the log has room when the flusher needs it (C68_every_call_answered_partial, C68_answered_in_order_partial), and unconditionally when the log has room for the calls outstanding (C68_answered_if_fits); a commit ends unless it panics (C68_commit_ends_partial); no party is ever blocked except by a full log (C68_never_blocked, C68_commit_never_blocked), so fairness is satisfiable. C68_violated_by_burst: a burst longer than the log makes the flusher panic and no call is answered again; C68_violated_by_full_log: with a commit threshold within a page of the log size, which the code accepts, a full log is never emptied, through any number of restarts."
 ],
 "C69": [
  "partial",
  "C69_every_call_ends: in every fair run every call is answered or panics (tickets of the tuple index always fire, writers leave, pages can be given back). C69_why_calls_panic: the only panics are a create without room and a delete or replacement of a version whose own commit is unanswered. C69_commits_and_deletes_answered_partial: without such overlap all commits and deletes are answered. C69_never_blocked: fairness asks nothing impossible; C69_case a concrete fair run. C69_violated_by_racing_delete: a delete of an object whose commit is visible but not yet in the tuple index panics and is never answered; the object is gone, the commit is answered, and after a restart the object is back."
 ],
 "C70": [
  "partial",
  "C70_kv_writes_partial, C70_kv_apart_partial, C70_kv_reads_partial and their direct counterparts hold in every reachable state in which none of the faults of the other findings has occurred (KV: oversized flush, swallowed bundle panic, heap tuple in replayed log, empty key; direct: PageFaultFree); C70_direct_blocks: the blocks write_object hands to the device are whole pages inside the page and begin with the data. The KV claim is per region, because the regions themselves overlap (C38). C70_kv_case, C70_kv_read_case and C70_direct_case are concrete states with such writes in flight. Lite (no alignment is required there): C70_lite_writes_partial (every write in flight lies in its region), C70_lite_regions, C70_lite_apart_partial (no two share a byte unless they are parts of one upload), C70_lite_sources_partial (no byte changes otherwise, except the list pointer a delete overwrites directly), in every reachable state without the faults of C15. C70_lite_disciplined: nothing excluded under the rule of C15_disciplined."
 ],
 "C71": [
  "partial",
  "C71_every_call_ends_partial, C71_answered_partial, C71_transactions_acknowledged_partial, C71_locks_given_back_partial: in every fair run without the lite store's known faults. C71_why_calls_die: in such runs no call panics; it is under way, answered or dropped. C71_never_blocked, C71_journal_never_blocked: fairness asks nothing impossible; C71_case a concrete fair run with contention. C71_violated_by_cycle: after a delete of an object whose predecessor's create is not answered, and another create, the bucket's list is a cycle; a lookup follows it for ever holding the bucket's lock, so nothing in the bucket can change any more. C71_disciplined: nothing excluded under the rule of C15_disciplined."
 ],
 "C72": [
  "partial",
  "C72_acked_parts_hold_uploaded_bytes_partial: the bytes of every acknowledged part are uploaded bytes. C72_every_byte_uploaded_partial, C72_read_partial, C72_get_partial, C72_round_trip_partial: all bytes of every object in use (visible, or being removed while reads go on), in any number of partitions, and all bytes of every GET, if the commit request carried the upload token handed out for the upload, or the object has one part. C72_violated_stale_bytes: a client that may create, write and commit only its own key commits with a write receipt in the place of the upload token and reads the bytes of a deleted object. Assumes clients and crashes keep to the rules of C29 (no overlapping changes of one key, metadata within two small pages, device writes not cancelled, no crash while a replacing commit is unanswered) and an unforgeable MAC. C72_get and C72_round_trip take a GET at one moment; C72_read covers each page of a longer read at its own moment."
 ],
 "C73": [
  "partial",
  "C73_all_done_means_tested_partial (for at least one worker), C73_keys_distinct, C73_wrong_bytes_caught, C73_no_false_alarm, C73_every_run_ends, C73_finishes, C73_completes, C73_sizes_tried. C73_violated_failure_hangs: once a worker has failed no worker ever exits, so unless it is the first one the tester hangs instead of failing. C73_violated_no_workers: with concurrency 0 it prints all done untested. C73_violated_no_objects: with no objects it never ends. C73_violated_key_too_long: keys exceed object_key_len_max. The channel is modelled as a set from which any task may be taken; hashes are arbitrary functions of the object number; a call takes effect in a correct store when it is answered."
 ],
 "C74": [
  "partial",
  "C74_read_exact, C74_read_changes_nothing, C74_write_exact, C74_windows_apart, C74_answered_partial, C74_direct_format, C74_direct_format_answered, C74_direct_load_partial, C74_kv_areas_partial, C74_mock_flat, C74_mock_eq. Violated: C74_violated_direct_big_area (a direct partition whose tuple area exceeds 2 GiB - 4 KiB can be formatted but never opened), C74_violated_kv_big_pages (KV with pages of 8 KiB or more and a bundle area of 2 GiB or more), both instances of C74_violated_too_long; C74_violated_wrap (bounds checks wrap; no caller does that); C74_violated_mock_eq (comparing test devices). The limit of one transfer, 0x7ffff000 bytes, is Linux's and is assumed for the constant URING_LEN_MAX of a crate that is not part of the repository."
 ],
 "C75": [
  "partial",
  "Direct store: C75_direct_ops, C75_direct_objects_partial (a start that found two versions of one key excluded for bytes), C75_direct_counts, C75_direct_in_progress_partial (no call panicked), C75_direct_defined, C75_direct_case. Violated: C75_violated_wrap (a delete answers before the commit of its object: 2^64-1 committed objects are shown), C75_violated_panic (after the panic of finding 24 the counters stay wrong), C75_violated_duplicate (a start that finds two versions of a key counts the bytes of both). Lite store: C75_lite_objects_partial and C75_lite_in_progress_partial (objects and data bytes; executions without the faults of C15), C75_lite_sequential, C75_lite_defined, C75_lite_case. Violated: C75_violated_lite_incomplete(_always) (the counter of incomplete objects never changes after opening), C75_violated_lite_metadata (creates add the length, deletes subtract the page size: shows almost 2^64). KV store: C75_kv_ops, C75_kv_ops_idle, C75_kv_objects_partial, C75_kv_committed_partial and C75_kv_bytes_partial (executions without the faults of C34; bytes exact if no large value was overwritten or deleted before a background commit took it up, or after a restart: C75_kv_restart), C75_kv_defined. Violated: C75_violated_kv_leak, C75_violated_kv_overflow (after the swallowed panic of C34 the count stays wrong). Byte counters of reads and writes: C77. Not modelled: the lite counters after a restart (C64: what a restart visits is wrong in the first place). C75_lite_disciplined: objects and data bytes, nothing excluded under the rule of C15_disciplined."
 ],
 "C76": [
  "partial",
  "C76_reported_partial (any store; what was read was right as far as it went), C76_writes_whole, C76_concurrency, C76_no_false_alarm, C76_goes_on, C76_every_run_ends, C76_completes, C76_leaves, C76_percentiles (up to 2^45 latencies), C76_case. Violated: C76_violated_void_store (a store that returns no bytes and reports size 0 passes, whatever is configured), C76_violated_skip_creation (a run that skips creation never completes against a correct store, since the pool is drawn afresh). Not modelled: times, averages, system metrics, time to first byte."
 ],
 "C77": [
  "partial",
  "Direct: C77_direct_read_counted, C77_direct_read_amplification (a read whose object is deleted under it leaves at most one buffer of device bytes unaccounted), C77_direct_read_same and C77_direct_write_same (the counted functions are those of C18/C20), C77_direct_write_counted, C77_direct_write_success. KV: C77_kv_read_counted, C77_kv_write_counted, C77_kv_same. Violated: C77_violated_direct_failed_write (a write whose body breaks off at once is counted with its whole length). Missing: the lite store (it has no such counters), background moves of the KV store."
 ],
 "C78": [
  "partial",
  "Direct: C78_direct_pages (pages are found), C78_direct_create_accepted (one create beside any commits, deletes, reads, writes), C78_direct_creates_accepted (several creates at once), C78_direct_free_pages (what counts as free at rest: all that no visible object or open upload touches), C78_direct_slots (after a start a slot is known iff there are fewer tuples than slots). Lite: C78_lite_pages, C78_lite_create_accepted (any other calls, creates included), C78_lite_free_pages_partial. The conditions are needed: C78_direct_condition_needed, C78_lite_condition_needed. Missing: executions with the faults of C27/C15; while the direct store runs, a slot freed in a full bundle is forgotten (C26), so SlotKnown can fail with slots free; the KV store (there a write with room in the heap is prepared by C66_space_exact_partial and answered by C68_answered_if_fits). C78_lite_disciplined: C78_lite_create_accepted under the usage rule instead of absence of faults."
 ],
 "C79": [
  "partial",
  "Rust: C79_rust_request_exact (the request is understood as meant exactly if the key does not vanish in the URL and its query part names none of the method's own parameters), C79_rust_request, C79_rust_calls (what each method does and returns, for keys that survive the URL: C50), C79_presigned. JavaScript: C79_js_request (any key that does not vanish), C79_js_calls (authentication off, same origin, sizes below 2^53). Server: C79_server_reads (a request is acted on exactly if it has the method, path and exactly one of each parameter that the endpoint needs, numbers in decimal below 2^64, and then as it says), C79_server_refuses (any other request is refused and the store not asked). The code does not have the rest of the property: C79_violated_rust_streamed_write, C79_violated_js_streamed_write (bodies without known length are refused), C79_violated_end_without_start (an end without a start is ignored and the whole object returned), C79_violated_rust_empty_key, C79_violated_js_cross_origin (the token headers cannot be read by a page of another origin), C79_violated_js_size_rounded; keys that change in the URL are C50's, refused signatures of the JavaScript client C53's."
 ],
 "C80": [
  "partial",
  "One call at a time nothing is missing: C80_sequential. For overlapping calls C80_acked_parts_partial (one part), C80_contents_partial (the whole object), C80_read_partial (reads), for executions without the faults of C15 and without calls dropped during a device write; with such a drop the code does not have the property (C52_violated_by_dropped_write: the late write overwrites another object). Crash and reopen are C64/C65's. C80_disciplined: nothing excluded under the rule of C15_disciplined."
 ],
 "C81": [
  "partial",
  "Direct store: C81_direct_valid and C81_direct_once hold for every schedule and history; C81_direct_restart_partial (an upload with an answered commit is not there again after a crash) excludes the faults of C28. Lite: one call at a time nothing is missing (C81_lite_sequential); overlapping calls C81_lite_valid_partial, C81_lite_once_partial, for executions without the faults of C15; with a stale copy the code does not have the property: C81_violated_by_stale_copy. Reopening the lite store is C64/C65's. C81_lite_disciplined: nothing excluded under the rule of C15_disciplined."
 ],
 "C82": [
  "partial",
  "Names and grouping: C82_file_names, C82_only_results, C82_groups, for all. The page: C82_strings for all strings, C82_script_partial for all texts without `</script` and `<!--`; with them the code does not have the property (C82_violated_script). C82_violated_secret: every page with results of an S3 benchmark has its secret key in it. Reading the JSON files back into records (serde) and the charts are not modelled."
 ],
 "C83": [
  "partial",
  "C83_answer: the server's answer exactly, for all ranges; C83_printed_uploaded_partial, C83_round_trip_partial and C83_put_then_get_partial (blobc put, then blobc get): what is printed, if each write to standard output happens before the next is handed over and none is dropped at exit; C83_copies_partial: what is left without that. The code does not ensure it: C83_violated_output (output lost or out of order with status 0). C83_violated_end: `--end` is inclusive, and the largest number wraps to 0. blobc does not type-check at this commit (`u64` passed for `Option<u64>`); the model reads it as `Some(start)`."
 ],
 "C84": [
  "partial",
  "C84_honest: every point is the value of a run with that size, for all files; C84_shows_all_partial and C84_any_order_partial: exactly the runs, in any order of the files, if there is at most one run for each benchmark and size and all runs of a benchmark are of one kind of store; C84_direct_is_one, C84_random_bytes. Violated: C84_violated_one_per_size (of two runs with the same size and other numbers of objects, only one is shown), C84_violated_order (which one depends on the directory's order), C84_violated_label. Exact numbers instead of doubles; colours, axes and formatting are left out."
 ],
 "C85": [
  "partial",
  "Lite: C85_kept (no lookup misses a committed version that was not deleted, or finds anything else), C85_latest_partial (the last one is found if versions are committed in the order they were created), C85_off. Violated: C85_violated_latest (of two uploads, the one created later stays the current version although the other is committed after it), C85_violated_server (the server reads the setting and ignores it: no earlier version is ever found). Missing for lite: overlapping changes of one bucket, where C15 fails. C85_kept_after_crash: the same after a crash at any moment and a restart, when the changes of the bucket were answered."
 ],
 "C86": [
  "partial",
  "For all values: C86_size, C86_storage, C86_rate, C86_ratio, C86_ops, C86_time_partial (what each text says, and how near it is), C86_marks and C86_axis (the marks span the values and each says its place, to within the rounding), C86_hover_partial (the text over a point). Violated: C86_violated_count (total numbers of disk operations are shown as op/s), C86_violated_latency (latencies below 50 ms: all marks of the axis say 0.0s). Missing: the rounding of doubles, texts that Plotly writes, the logarithmic horizontal axis."
 ],
 "C87": [
  "partial",
  "C87_counted, C87_bytes_written (data and padding are exactly the bytes written, but for one page at each new round of the log), C87_data_bytes (exactly the entries and one marker byte for each flush that does not end with a page), C87_sizes_partial (the classes are exact for pages of at most 4 KiB). Violated: C87_violated_large_flush (flushes of more than 8 MiB are in no class), C87_violated_large_page (with larger pages a flush of exactly 4 KiB is counted in the next class: the marker byte counts). Missing: the counters of times and of background commits."
 ],
 "C88": [
  "partial",
  "C88_since_opened: in every execution, faults or not, the counters are the entries replayed when the store was opened and the requests acknowledged since. C88_entries_partial: the replayed entries are those of the last requests before, in every execution without one of the recorded faults (a panicked bundle update, a restart over heap tuples in the log, an oversized flush) and without the empty key; C88_entries_disciplined: without these exclusions for a client within API-level limits (see C34). C88_all_steps and C88_all_states: every step and state of an execution has its counters. Counters do not wrap in the model (64 bits in the code); an entry is applied, counted and acknowledged in one step."
 ],
 "C89": [
  "partial",
  "C89_commits, C89_bundles (with C89_loss_shows when updates were lost) and C89_all_steps hold in every execution; C89_entries_partial without the recorded faults and the empty key, C89_entries_disciplined without these exclusions for a client within API-level limits (see C34). C89_loss_shows: the swallowed panic of finding C34 can be seen in these counters from then on. C89_moves_partial (same exclusions): values moved to the heap and their bytes. Missing: the counters of times."
 ]
}