{"id": "C01", "title": "Object layout covers the object exactly", "statement": "For every object size and every valid (small page, large page) configuration the layout chosen for an object has total page capacity equal to the object size rounded up to the small page size: enough for every byte, and less than one small page is wasted. Every tail page is a power of two between the small and the large page size and tail pages are strictly decreasing.", "quantifier": "every object size up to the library's maximum, every spage_pow2 <= lpage_pow2", "why_tests_cant": "sizes range over a 40-bit space and all page-size configurations; unit tests try a handful of sizes", "anchors": ["libblobd-lite/src/allocator/layout.rs:calc_object_layout", "libblobd-direct/src/object/mod.rs:calc_object_layout", "libblobd-lite/src/util.rs"]}
{"id": "C02", "title": "Tail page descriptor is a faithful sequence", "statement": "The packed tail-page descriptor behaves as a list: after pushing any sequence of at most 24 page exponents below 32, its length and each indexed element are exactly what was pushed, in order; reading never disturbs it, and the packed form takes exactly two 64-bit words.", "quantifier": "every sequence of pushes of length <= 24 with exponents < 32", "why_tests_cant": "32^24 sequences; the existing unit test covers a few literal sequences", "anchors": ["libblobd-lite/src/allocator/layout.rs:TailPageSizes", "libblobd-direct/src/object/tail.rs:TailPageSizes"]}
{"id": "C03", "title": "Live allocations never overlap", "statement": "In every history of allocations and releases on the heap, no two pages that are live at the same time share a byte, so no object's data or metadata can be overwritten by storing another object.", "quantifier": "every sequence of allocate/release operations, every heap size and page-size configuration, both placement directions", "why_tests_cant": "histories are unbounded and fragmentation states astronomically many", "anchors": ["libblobd-lite/src/allocator/mod.rs:Allocator", "libblobd-direct/src/allocator/mod.rs:Allocator"]}
{"id": "C04", "title": "Allocations are big enough, aligned and inside the heap", "statement": "Every successful allocation of n bytes returns a page of size max(spage, n rounded up to a power of two), whose offset is a multiple of that size (relative to the heap start) and which lies entirely inside the heap region.", "quantifier": "every reachable allocator state and every request size up to the large page size", "why_tests_cant": "depends on arbitrary prior history", "anchors": ["libblobd-lite/src/allocator/mod.rs:allocate", "libblobd-direct/src/allocator/mod.rs:allocate"]}
{"id": "C05", "title": "Freed space fully coalesces", "statement": "After any history, once every live page has been released (in any order) the allocator is in exactly its initial state: every large page is available again and no fragmentation remains.", "quantifier": "every history and every release order", "why_tests_cant": "fragmentation bugs only show after particular long histories", "anchors": ["libblobd-lite/src/allocator/mod.rs:_release", "libblobd-direct/src/allocator/mod.rs:_release"]}
{"id": "C06", "title": "Out of space is reported exactly when there is no room", "statement": "An allocation fails with out-of-space if and only if no aligned block of the required size inside the heap is disjoint from all live pages; a failed allocation leaves the allocator unchanged.", "quantifier": "every reachable allocator state and request size", "why_tests_cant": "requires comparing against all possible placements in all states", "anchors": ["libblobd-lite/src/allocator/mod.rs:_allocate", "libblobd-direct/src/allocator/mod.rs:_allocate"]}
{"id": "C07", "title": "Restart reconstructs the allocator from the live pages alone", "statement": "Rebuilding the free-space map at startup by marking each live page as allocated, in any order, never fails and produces exactly the free-space map the running system had: pages not referenced are free, pages referenced are not.", "quantifier": "every history before the restart, every enumeration order of live pages", "why_tests_cant": "history x permutation space", "anchors": ["libblobd-lite/src/allocator/mod.rs:mark_as_allocated", "libblobd-direct/src/allocator/mod.rs:mark_as_allocated", "libblobd-direct/src/objects.rs:load_objects_from_device"]}
{"id": "C08", "title": "No space is leaked or double counted by the allocator", "statement": "At every moment the bytes in free blocks plus the bytes in live pages equal the heap size, and the used-space metric equals the bytes of live pages.", "quantifier": "every history of successful allocations and releases", "why_tests_cant": "unbounded histories", "anchors": ["libblobd-direct/src/allocator/mod.rs", "libblobd-lite/src/allocator/mod.rs", "libblobd-lite/src/metrics.rs"]}
{"id": "C09", "title": "KV heap allocations never overlap and stay inside the heap", "statement": "In the KV store, in every history of heap allocations and releases no two live value regions share a byte and each lies inside the heap; each is at least as long as requested.", "quantifier": "every history of allocate/release of sizes up to 16 MiB", "why_tests_cant": "unbounded histories with arbitrary sizes", "anchors": ["libblobd-kv/src/allocator.rs:Allocator"]}
{"id": "C10", "title": "KV heap space is reusable and recoverable", "statement": "Releasing a value region makes exactly its bytes free again; rebuilding the allocator at startup by marking the live regions gives exactly the complement of the live regions as free space, and the used-space metric equals the live bytes.", "quantifier": "every history, every marking order", "why_tests_cant": "unbounded histories", "anchors": ["libblobd-kv/src/allocator.rs:release", "libblobd-kv/src/allocator.rs:mark_as_allocated", "libblobd-kv/src/object.rs:load_tuples_from_device"]}
{"id": "C11", "title": "Merged journal writes equal the writes in order", "statement": "Whatever overlapping writes are queued in a journal batch, writing the merged batch to the device leaves every byte as if the original writes had been performed one by one in order, and touches no other byte.", "quantifier": "every sequence of (offset, data) writes, every initial device image", "why_tests_cant": "overlap patterns of arbitrary lists of intervals", "anchors": ["libblobd-lite/src/journal/merge.rs:WriteMerger"]}
{"id": "C12", "title": "A journal batch can be applied in any order and repeatedly", "statement": "The merged writes of a batch are pairwise disjoint, so performing them concurrently in any order, or re-performing any of them, gives the same device contents.", "quantifier": "every batch and every permutation/replay", "why_tests_cant": "permutations of arbitrary batches", "anchors": ["libblobd-lite/src/journal/merge.rs", "libblobd-lite/src/journal/real.rs"]}
{"id": "C13", "title": "Pending metadata updates are visible until durable", "statement": "While a metadata update is not yet on the device every reader sees the most recent pending value; completion of an older update never hides a newer pending one; after all updates complete the device alone gives the latest value.", "quantifier": "every interleaving of updates and completions", "why_tests_cant": "interleavings", "anchors": ["libblobd-lite/src/overlay.rs:Overlay"]}
{"id": "C14", "title": "Lite object header round-trips", "statement": "Every object metadata record written by the lite store can be read back: state, next pointer, creation time, size, id, key, page offsets and associated data are recovered exactly for every key and page list, within the documented field widths.", "quantifier": "every key, size, offset list and associated data within field widths", "why_tests_cant": "input space", "anchors": ["libblobd-lite/src/object.rs:ObjectMetadata", "libblobd-lite/src/op/create_object.rs"]}
{"id": "C15", "title": "Lite store behaves like a map from keys to committed versions", "statement": "For every sequence of create, write, commit, delete and inspect calls the lite store's answers are those of an abstract map: an object is visible exactly from its commit until it is deleted or replaced; operations on one key never affect another key even when they hash to the same bucket.", "quantifier": "every sequence of operations over any keys, any hash function", "why_tests_cant": "unbounded operation sequences and collisions", "anchors": ["libblobd-lite/src/op/create_object.rs", "libblobd-lite/src/op/commit_object.rs", "libblobd-lite/src/op/delete_object.rs", "libblobd-lite/src/op/inspect_object.rs", "libblobd-lite/src/bucket.rs"]}
{"id": "C16", "title": "Lite delete unlinks exactly one object", "statement": "Deleting (or replacing) an object removes exactly that object from its hash bucket: all other objects in the bucket, committed or incomplete, stay reachable and unchanged, in the same order.", "quantifier": "every bucket chain and every position in it", "why_tests_cant": "chain shapes and collisions", "anchors": ["libblobd-lite/src/bucket.rs:delete_object"]}
{"id": "C17", "title": "Lite bucket pointers survive encoding", "statement": "A bucket head pointer stored on the device is read back as the same object offset for every valid offset, on every read path including startup.", "quantifier": "every 256-byte aligned 48-bit offset", "why_tests_cant": "offset space", "anchors": ["libblobd-lite/src/bucket.rs", "libblobd-lite/src/lib.rs:load_buckets"]}
{"id": "C18", "title": "Reads return exactly the requested bytes", "statement": "For every accepted range [start,end) of a fully written object the concatenation of the streamed chunks equals bytes start..end of the object, whatever the page layout, stream buffer size and device sector alignment.", "quantifier": "every object size, layout, content, range, buffer size", "why_tests_cant": "size x range x layout space", "anchors": ["libblobd-lite/src/op/read_object.rs", "libblobd-direct/src/op/read_object.rs"]}
{"id": "C19", "title": "Range validation is exact", "statement": "A read is refused with RangeOutOfBounds exactly when the range is empty-invalid or extends past the object's size (per library: lite refuses start=end, direct and kv accept empty ranges inside the object); it never returns bytes beyond the size.", "quantifier": "every size, start, optional end", "why_tests_cant": "boundary space", "anchors": ["libblobd-lite/src/op/read_object.rs", "libblobd-direct/src/op/read_object.rs", "libblobd-kv/src/op/read_object.rs"]}
{"id": "C20", "title": "Write-then-read round-trip", "statement": "After writing every large-page-sized part of an object (in any order, each with any chunking of its data stream) and committing, reading any range returns exactly the bytes supplied.", "quantifier": "every size, content, part order, stream chunking, range", "why_tests_cant": "combinatorial space", "anchors": ["libblobd-lite/src/op/write_object.rs", "libblobd-direct/src/op/write_object.rs", "libblobd-direct/src/op/read_object.rs"]}
{"id": "C21", "title": "Writes are accepted exactly at part boundaries", "statement": "A write is accepted exactly when its offset is a multiple of the large page size and its length reaches exactly the next part boundary or the object end; otherwise the documented error is returned and nothing is written.", "quantifier": "every offset, length, size, page configuration", "why_tests_cant": "boundary space", "anchors": ["libblobd-lite/src/op/write_object.rs", "libblobd-direct/src/op/write_object.rs"]}
{"id": "C22", "title": "Write result does not depend on stream chunking and always terminates", "statement": "For every way the request body is split into chunks the write terminates; it succeeds exactly when the total equals the declared length, storing the same bytes, and otherwise reports a length mismatch.", "quantifier": "every chunking of every stream, including empty chunks and short or long streams", "why_tests_cant": "infinite chunkings; non-termination cannot be observed by a test", "anchors": ["libblobd-lite/src/op/write_object.rs", "libblobd-direct/src/op/write_object.rs"]}
{"id": "C23", "title": "Writes stay inside the object's own pages", "statement": "A write of an object part modifies only bytes inside that object's own pages for that part; no other object, part or metadata changes.", "quantifier": "every layout, offset, content", "why_tests_cant": "device state space", "anchors": ["libblobd-lite/src/op/write_object.rs", "libblobd-direct/src/op/write_object.rs"]}
{"id": "C24", "title": "Direct tuple record round-trips", "statement": "Every persisted object tuple (state, id, metadata location, metadata size) is decoded from its 24 bytes exactly as encoded, and a page of tuples decodes to the same tuples.", "quantifier": "every id, offset and state; every bundle within capacity", "why_tests_cant": "input space", "anchors": ["libblobd-direct/src/object/mod.rs:ObjectTuple", "libblobd-direct/src/tuples.rs"]}
{"id": "C25", "title": "Tuple area tracks exactly the live objects", "statement": "After any sequence of inserts, updates, deletes and background commits, once the background loop has caught up the persisted tuple area contains exactly one tuple per live object with its latest state, and nothing else; no bundle exceeds its capacity.", "quantifier": "every interleaving of operations with background commits", "why_tests_cant": "interleavings", "anchors": ["libblobd-direct/src/tuples.rs"]}
{"id": "C26", "title": "Tuple slots are never lost", "statement": "Creating an object never fails for lack of tuple slots while fewer than capacity objects exist.", "quantifier": "every history", "why_tests_cant": "needs long histories", "anchors": ["libblobd-direct/src/tuples.rs:insert_object", "libblobd-direct/src/tuples.rs:delete_object"]}
{"id": "C27", "title": "Commit makes an object visible atomically and replaces the previous version", "statement": "In the direct store, at every moment each key maps to at most one visible object; before commit the object is invisible; commit replaces the previous version (or with if_not_exists keeps the existing one and discards the new); delete makes it invisible.", "quantifier": "every sequence of create/commit/delete/inspect over any keys", "why_tests_cant": "unbounded operation sequences", "anchors": ["libblobd-direct/src/op/commit_object.rs", "libblobd-direct/src/op/delete_object.rs", "libblobd-direct/src/op/inspect_object.rs", "libblobd-direct/src/op/create_object.rs"]}
{"id": "C28", "title": "Acknowledged direct operations survive a crash", "statement": "After a crash at any point and restart, every object whose commit was acknowledged and not since deleted is present with its metadata, every acknowledged delete stays deleted, and every unacknowledged operation either fully happened or did not.", "quantifier": "every history and crash point", "why_tests_cant": "crash points x histories", "anchors": ["libblobd-direct/src/objects.rs", "libblobd-direct/src/tuples.rs", "libblobd-direct/src/op/commit_object.rs"]}
{"id": "C29", "title": "Page reuse after delete is safe across crashes", "statement": "A page is returned to the free pool only after the tuple referencing it is durably gone, so after any crash no two live objects share a page and no live object's metadata is overwritten.", "quantifier": "every history and crash point", "why_tests_cant": "crash points x histories", "anchors": ["libblobd-direct/src/op/delete_object.rs:reap_object", "libblobd-direct/src/objects.rs"]}
{"id": "C30", "title": "Metadata page is released with the size it was allocated with", "statement": "The size recorded for an object's metadata page equals the size allocated for it, so deletion returns exactly that page and startup reads all of the metadata.", "quantifier": "every key length, object size and page configuration", "why_tests_cant": "input space", "anchors": ["libblobd-direct/src/op/create_object.rs", "libblobd-direct/src/op/delete_object.rs", "libblobd-direct/src/objects.rs", "libblobd-lite/src/op/create_object.rs"]}
{"id": "C31", "title": "Sector-unaligned reads are exact", "statement": "A read at arbitrary offset and length from a sector-aligned device returns exactly the bytes requested, issuing only sector-aligned reads that stay within the page.", "quantifier": "every offset, length, sector size", "why_tests_cant": "input space", "anchors": ["libblobd-direct/src/op/read_object.rs:unaligned_read"]}
{"id": "C32", "title": "Data export lists every committed object once, in order", "statement": "Walking the export with the returned markers visits every committed object at or after the starting marker exactly once in increasing (id, partition) order, and each exported object's data is its exact bytes.", "quantifier": "every set of objects, every starting marker", "why_tests_cant": "unbounded sets", "anchors": ["libblobd-direct/src/exporter.rs"]}
{"id": "C33", "title": "KV tuple and bundle encoding round-trips", "statement": "Any list of key/value tuples written to a bundle page is read back identically, for inline and heap values and for literal and hashed keys.", "quantifier": "every list of tuples that fits a bundle", "why_tests_cant": "input space", "anchors": ["libblobd-kv/src/object.rs"]}
{"id": "C34", "title": "KV read returns the latest acknowledged write", "statement": "In the KV store, at every moment a read of a key returns the value of the latest applied write to that key, or not-found if the latest was a delete or there was none, regardless of where the tuple currently lives (log buffer, being committed, or bundle).", "quantifier": "every interleaving of writes, deletes, flushes and background commits", "why_tests_cant": "interleavings", "anchors": ["libblobd-kv/src/log_buffer.rs:read_tuple", "libblobd-kv/src/log_buffer.rs", "libblobd-kv/src/op"]}
{"id": "C35", "title": "KV log replay restores acknowledged writes", "statement": "After a crash at any point, replaying the log between the persisted head and tail over the bundles yields, for every key, the latest acknowledged value (or a later unacknowledged one).", "quantifier": "every history and crash point", "why_tests_cant": "crash points x histories", "anchors": ["libblobd-kv/src/log_buffer.rs:load_from_device"]}
{"id": "C36", "title": "KV log entries round-trip through padding and wraparound", "statement": "The byte stream the log writer produces is parsed back as exactly the sequence of upserts and deletes that was written, for every batching, including page padding and ring wraparound.", "quantifier": "every sequence of batches and every ring size", "why_tests_cant": "input space", "anchors": ["libblobd-kv/src/log_buffer.rs"]}
{"id": "C37", "title": "KV log never overwrites uncommitted entries", "statement": "The ring log never writes over a byte between its committed head and its tail.", "quantifier": "every history", "why_tests_cant": "unbounded histories", "anchors": ["libblobd-kv/src/log_buffer.rs"]}
{"id": "C38", "title": "KV device regions are disjoint", "statement": "For every accepted configuration the bundles, heap, log data and log state regions are disjoint and inside the device.", "quantifier": "every accepted device size and configuration", "why_tests_cant": "configuration space", "anchors": ["libblobd-kv/src/lib.rs"]}
{"id": "C39", "title": "Lite device regions are disjoint and inside the device", "statement": "For every accepted configuration the buckets, journal and heap regions are disjoint and inside the device.", "quantifier": "every accepted device size and configuration", "why_tests_cant": "configuration space", "anchors": ["libblobd-lite/src/lib.rs"]}
{"id": "C40", "title": "Direct partition regions are disjoint and inside the partition", "statement": "For every accepted configuration the tuple area and heap are disjoint and inside the partition, and store bounds never allow access to another partition.", "quantifier": "every accepted configuration", "why_tests_cant": "configuration space", "anchors": ["libblobd-direct/src/partition/mod.rs", "libblobd-direct/src/backing_store/mod.rs"]}
{"id": "C41", "title": "Auth tokens grant exactly the named action until expiry", "statement": "A token is accepted for an action exactly when it was issued with the server's secret for that same action (same kind, same key) and has not expired.", "quantifier": "every action, key, expiry, byte string presented", "why_tests_cant": "all byte strings", "anchors": ["blobd-token/src/lib.rs:AuthToken", "blobd/src/endpoint"]}
{"id": "C42", "title": "Commit over HTTP requires every part to have been written", "statement": "The server only commits an upload if it previously acknowledged a write of every part of that upload.", "quantifier": "every sequence of requests by any client", "why_tests_cant": "adversarial request sequences", "anchors": ["blobd/src/endpoint/mod.rs:verify_write_receipts", "blobd/src/endpoint/commit_object.rs", "blobd/src/endpoint/write_object.rs"]}
{"id": "C43", "title": "Batch create stores exactly the encoded objects", "statement": "Decoding a batch-create body built by the client creates and commits exactly those objects in order with exactly those bytes, and the reported count is the number of objects committed before the first error.", "quantifier": "every list of objects", "why_tests_cant": "input space", "anchors": ["blobd/src/endpoint/batch_create_objects.rs", "blobd-client-rs/src/lib.rs", "blobd-client-js/src/main.ts:batchCreateObjects"]}
{"id": "C44", "title": "HTTP range requests map to the right byte range", "statement": "A single-range request returns exactly the inclusive byte range asked for, with matching Content-Range; a header that does not parse as a range is ignored (whole object, status 200), and anything else is refused. A read through a client library with a start and an end yields the bytes from start to end.", "quantifier": "every range header and object size", "why_tests_cant": "input space", "anchors": ["blobd/src/endpoint/read_object.rs", "blobd-client-rs/src/lib.rs:read_object", "blobd-client-js/src/main.ts:readObject"]}
{"id": "C45", "title": "A key always lives in one partition / bucket / bundle", "statement": "Every operation on a key is routed to the same in-range partition (direct), bucket (lite) and bundle (kv), for any key bytes.", "quantifier": "every key and configuration", "why_tests_cant": "input space", "anchors": ["libblobd-direct/src/lib.rs", "libblobd-lite/src/bucket.rs:BucketsReader", "libblobd-kv/src/object.rs:get_bundle_index_for_key"]}
{"id": "C46", "title": "Error kinds are not confused over HTTP", "statement": "Every storage error is reported with its own HTTP status; success statuses are only sent on success.", "quantifier": "every error kind and endpoint", "why_tests_cant": "finite table but spread over every endpoint", "anchors": ["blobd/src/endpoint/mod.rs:transform_op_error"]}
{"id": "C47", "title": "Lite journal applies transactions in commit order and acknowledges only what is on the device", "statement": "In the lite store, at every moment the device metadata equals the result of a prefix of the committed metadata transactions applied in commit order (plus at most part of the batch being flushed), a transaction is acknowledged only when all its writes are on the device, and whenever the journal loop gets to run every queued transaction is eventually acknowledged.", "quantifier": "every sequence of transactions, every batching of the journal loop and every interleaving of commits with the loop", "why_tests_cant": "batches depend on timing; a test sees a few interleavings only", "anchors": ["blobd-lite/src/journal/real.rs: Journal::start_commit_background_loop", "blobd-lite/src/journal/mod.rs: Transaction"]}
{"id": "C48", "title": "Lite metadata transactions are atomic across crashes", "statement": "After a crash at any point of flushing a batch of metadata transactions, recovery leaves the device with either none or all of the writes of each transaction of that batch.", "quantifier": "every batch, every subset and order of its writes that reached the device before the crash", "why_tests_cant": "needs a crash at every point between device writes", "anchors": ["blobd-lite/src/journal/real.rs: start_commit_background_loop, recover"]}
{"id": "C49", "title": "A read in progress never returns another object's bytes", "statement": "Every byte a read stream yields belongs to the object that was found when the read started, even if that object is deleted or overwritten while the stream is consumed.", "quantifier": "every interleaving of a slowly consumed read with deletes, overwrites and creations", "why_tests_cant": "schedules", "anchors": ["libblobd-lite/src/op/read_object.rs", "libblobd-direct/src/op/read_object.rs", "libblobd-direct/src/op/delete_object.rs"]}
{"id": "C50", "title": "The key given to the client is the key the server uses", "statement": "A request made through the client for a key reaches the server as a request for exactly that key, so different keys never meet in one object.", "quantifier": "every key", "why_tests_cant": "all byte strings, three encoders and decoders in a row", "anchors": ["blobd-client-rs/src/lib.rs:build_url", "blobd/src/endpoint/mod.rs:parse_key", "blobd-client-js/src/main.ts:buildUrl"]}
{"id": "C51", "title": "Writing one direct object never changes another", "statement": "A write to an incomplete object changes only bytes of that object: no step of any call, background task or restart changes a byte of a visible object or of an object whose deletion has not been answered, and bytes of an incomplete object change only where a write to that very object is running.", "quantifier": "every interleaving of creates, writes, commits, deletes, background commits and crashes", "why_tests_cant": "schedules x page reuse", "anchors": ["libblobd-direct/src/op/write_object.rs", "libblobd-direct/src/op/commit_object.rs", "libblobd-direct/src/op/delete_object.rs", "libblobd-direct/src/object/mod.rs"]}
{"id": "C52", "title": "Writing one lite object never changes another", "statement": "A write to an incomplete object of the lite store changes only bytes of that object: no step of any call or of the journal changes a byte of the contents of a committed object that can be found, or of one whose deletion has not released its pages; bytes of an incomplete object change only where a write to that very object is running; no two objects share a page.", "quantifier": "every interleaving of creates, writes, commits, deletes and journal commits", "why_tests_cant": "schedules x page reuse", "anchors": ["libblobd-lite/src/op/write_object.rs", "libblobd-lite/src/op/create_object.rs", "libblobd-lite/src/op/delete_object.rs", "libblobd-lite/src/op/commit_object.rs", "libblobd-lite/src/bucket.rs"]}
{"id": "C53", "title": "Tokens made by the client libraries are accepted by the server", "statement": "A token that a client library makes for an action with the server's secret is accepted by the server for exactly that action until it expires, so requests made through the library are authorised.", "quantifier": "every action, key, size, secret, expiry and time", "why_tests_cant": "two encoders in two languages must agree on every action and key; a test covers a few keys", "anchors": ["blobd-client-js/src/tokens.ts", "blobd-client-rs/src/lib.rs:generate_token", "blobd-token/src/lib.rs"]}
{"id": "C54", "title": "Uploading a file with the command-line tool stores exactly the file", "statement": "After `blobc put` has finished without error, reading the object returns exactly the bytes of the file; and for every file that fits the store `put` does finish, whatever the order in which its concurrent part uploads complete.", "quantifier": "every file, key, server page size, completion order, interleaving of the part writers and chunking of the bodies", "why_tests_cant": "concurrency and file sizes around multiples of the tile and page size", "anchors": ["blobc/src/put.rs", "blobc/src/get.rs", "blobd/src/endpoint/write_object.rs", "blobd/src/endpoint/commit_object.rs"]}
{"id": "C55", "title": "Uploading a directory stores every file or says so", "statement": "`blobc upload-dir` creates one object per file of the directory, with the file's bytes, and reports success only if it did.", "quantifier": "every directory tree, path form and server behaviour", "why_tests_cant": "all directory trees and partial server failures", "anchors": ["blobc/src/upload_dir.rs", "blobd-client-rs/src/lib.rs:batch_create_objects"]}
{"id": "C56", "title": "Space of deleted, replaced and discarded objects is reclaimed", "statement": "Whenever every call to the direct store has been answered, the pages that are not available for new objects are exactly those of the visible objects and of the uploads that can still be committed: a page of any size can be allocated if and only if the heap has an aligned place for it that touches none of them; if nothing is visible or open, all space is free as after formatting.", "quantifier": "every history of creates, writes, commits, deletes, failures, crashes and restarts", "why_tests_cant": "every interleaving and crash point; leaks show only after long histories", "anchors": ["libblobd-direct/src/op/create_object.rs", "libblobd-direct/src/op/delete_object.rs", "libblobd-direct/src/op/commit_object.rs", "libblobd-direct/src/objects.rs"]}
{"id": "C57", "title": "Uploads that are never committed expire", "statement": "An incomplete object that is not committed within the configured time (`expire_incomplete_objects_after_secs`, `reap_objects_after_secs`) is removed and its space reclaimed.", "quantifier": "every history and restart", "why_tests_cant": "unbounded time and histories", "anchors": ["libblobd-direct/src/lib.rs", "libblobd-direct/src/op/create_object.rs", "blobd/src/conf.rs", "blobd/src/main.rs"]}
{"id": "C58", "title": "A direct store with several partitions is one store", "statement": "Whatever the number of partitions, the calls on the store behave like calls on one map from keys to objects with one set of upload tokens, in an order compatible with real time; list_objects lists exactly the visible objects, each once; and a restart with the same configuration shows the same store.", "quantifier": "every number of partitions, hash function, interleaving of calls across partitions, crash and restart", "why_tests_cant": "all interleavings across partitions and all keys", "anchors": ["libblobd-direct/src/lib.rs:Blobd", "libblobd-direct/src/lib.rs:get_partition_index_by_object_key", "libblobd-direct/src/lib.rs:list_objects"]}
{"id": "C59", "title": "The tuple area holds the number of objects it was sized for", "statement": "A partition accepts creates until it holds as many objects as its tuple area has slots for; and with the space that is documented (and that the store adapter reserves) for N objects, N objects can be stored.", "quantifier": "every page configuration, number of objects and partitions, and history of creates, commits, deletes, restarts", "why_tests_cant": "needs millions of objects to show, and all histories and configurations for the general claim", "anchors": ["libblobd-direct/src/tuples.rs:tuple_bundles_count", "libblobd-direct/src/tuples.rs:Tuples::insert_object", "libblobd-direct/src/partition/mod.rs:PartitionLoader::new", "blobd/src/conf.rs:object_tuples_area_reserved_space", "store/src/direct.rs:BlobdDirectStore::start"]}
{"id": "C60", "title": "Ranged reads through the store interface are exact for every backend", "statement": "Through the common store interface, a read of a range inside an object returns exactly those bytes and completes, whatever the backend, and a range outside the object is refused.", "quantifier": "every object, range, backend and way the operating system cuts reads short", "why_tests_cant": "short reads and ranges are chosen by the environment; all ranges", "anchors": ["store/src/fs.rs:read_object", "store/src/s3.rs:read_object", "store/src/rocksdb.rs:read_object", "store/src/kv.rs:read_object", "store/src/kv.rs:inspect_object", "store/src/direct.rs:read_object", "store/src/lite.rs:read_object"]}
{"id": "C61", "title": "Uploads through the store interface are whole and appear at commit", "statement": "Through the common store interface, writing an object's pieces in any order and committing makes exactly that object visible; before the commit the previous object of that key, or none, is visible.", "quantifier": "every object, piece size, order of the writes and backend", "why_tests_cant": "all orders of the writes and all contents", "anchors": ["store/src/s3.rs:write_object", "store/src/s3.rs:commit_object", "store/src/fs.rs:create_object", "store/src/fs.rs:write_object", "store/src/rocksdb.rs:write_object", "store/src/direct.rs:write_object", "store/src/lite.rs:write_object", "store/src/kv.rs:write_object"]}
{"id": "C62", "title": "What was uploaded is what is read, across crashes", "statement": "If every part of an upload was written with the bytes of D, the upload was committed and the commit answered, then every later read of the key returns exactly the requested bytes of D, however often the store crashes and restarts and whatever else happens, until another commit or delete of the key takes effect.", "quantifier": "all contents and sizes, all interleavings of other calls, all crash points and restarts during the upload and afterwards, all read ranges and buffer sizes", "why_tests_cant": "the claim is about all schedules and crash points of the whole create/write/commit/read path", "anchors": ["libblobd-direct/src/op/write_object.rs", "libblobd-direct/src/op/commit_object.rs", "libblobd-direct/src/op/read_object.rs", "libblobd-direct/src/objects.rs"]}
{"id": "C63", "title": "HTTP methods do what they name and statuses say what happened", "statement": "GET and HEAD never change the store; every store operation is reached only by the method that names it, for the key in the path; methods without an endpoint get 405; 201 is answered exactly for successful commits, 202 for successful creates and writes, 206 for successful reads with a range.", "quantifier": "every method, path, query, header, token and store behaviour", "why_tests_cant": "input space", "anchors": ["blobd/src/server.rs:start_http_server_loop", "blobd/src/endpoint"]}
{"id": "C64", "title": "A lite store opened again serves every object as before", "statement": "If no call is running when the process ends, then opening the device again succeeds, every object is there as before, and all later calls are answered as if there had been no restart.", "quantifier": "every configuration, every history of calls in any interleaving before and after the restart, every page allocator state", "why_tests_cant": "The state to restore is the result of an unbounded history, and what startup reads depends on the whole bucket table.", "anchors": ["libblobd-lite/src/lib.rs:load_buckets", "libblobd-lite/src/lib.rs:load_object_list", "libblobd-lite/src/lib.rs:load", "libblobd-lite/src/bucket.rs:get_head"]}
{"id": "C65", "title": "A crash of a lite store loses no answered call", "statement": "If the process or machine dies at any moment, then the objects on the device afterwards are those that result from all calls answered before, plus possibly the call that was running, which has happened completely or not at all.", "quantifier": "every configuration, every history of calls (one at a time, or overlapping in any way for the buckets whose calls are all answered; journal in the background), every crash point including every prefix and order of the journal's device writes", "why_tests_cant": "Crash points and partial device writes cannot be enumerated by tests.", "anchors": ["libblobd-lite/src/journal/real.rs:recover", "libblobd-lite/src/journal/real.rs:start_loop", "libblobd-lite/src/bucket.rs:delete_object", "libblobd-lite/src/op/create_object.rs:op_create_object", "libblobd-lite/src/op/commit_object.rs:op_commit_object"]}
{"id": "C66", "title": "KV heap space of overwritten and deleted values comes back", "statement": "When no call is outstanding and every acknowledged call has been committed in the background, a write of a value beyond the inline threshold is refused for lack of space exactly if the values the keys have now leave no aligned free run of its rounded-up size; it never panics. In particular, once all keys are deleted the whole heap is free as after formatting.", "quantifier": "every configuration, every history of writes, overwrites, deletes, background commits, crashes and restarts, every key and value", "why_tests_cant": "Space is released by background commits that apply an arbitrary merged batch to arbitrary pages; a leak shows only after unboundedly many calls, and depends on when commits happen.", "anchors": ["libblobd-kv/src/log_buffer.rs:LogBuffer::start_background_threads", "libblobd-kv/src/op/write_object.rs:op_write_object", "libblobd-kv/src/op/delete_object.rs:op_delete_object", "libblobd-kv/src/allocator.rs:Allocator::allocate", "libblobd-kv/src/lib.rs:BlobdLoader::load_and_start"]}
{"id": "C67", "title": "Lite: heap space of replaced and deleted objects comes back", "statement": "In every state, a page of a given size can be allocated exactly if the heap has an aligned place for it touching no page of a listed object, of an object being created, or of an object a running call has unlinked; with no call running, the free bytes are the heap's less the pages of the listed objects, so replaced and deleted versions hold nothing and a store emptied again has the free-space map of a formatted device. Uploads that are given up are reclaimed after the configured time.", "quantifier": "every configuration, every interleaving of creates, writes, commits, deletes, inspects and reads, every size and page size", "why_tests_cant": "A leak or a double release shows only as a slow loss of capacity or a later overlap after an unbounded number of calls, and depends on how calls interleave with the journal.", "anchors": ["libblobd-lite/src/op/create_object.rs:op_create_object", "libblobd-lite/src/op/commit_object.rs:op_commit_object", "libblobd-lite/src/op/delete_object.rs:op_delete_object", "libblobd-lite/src/op/mod.rs", "libblobd-lite/src/allocator/mod.rs:Allocator::allocate", "libblobd-lite/src/lib.rs:BlobdCfg"]}
{"id": "C68", "title": "KV: every write and delete is answered, and background commits end", "statement": "Whatever the order in which the device, the calls, the flusher thread, the completer and background commits act, if each of them keeps acting when it can, every write and delete that is made is answered; calls handed to the log are answered in the order they were handed over, no matter how many calls follow; and a background commit, once started, ends.", "quantifier": "every configuration, every infinite fair schedule of calls, device writes, flusher, completer and commit, every number of calls", "why_tests_cant": "A call that hangs shows only under particular interleavings or fill levels of the log; no finite test distinguishes a hang from a long wait, and the schedules are unbounded.", "anchors": ["libblobd-kv/src/log_buffer.rs:LogBuffer::start_background_threads", "libblobd-kv/src/op/write_object.rs:op_write_object", "libblobd-kv/src/op/delete_object.rs:op_delete_object", "libblobd-kv/src/lib.rs:BlobdLoader"]}
{"id": "C69", "title": "Direct store: every call ends, and commits and deletes are answered", "statement": "Whatever the order in which calls, data writes, page writes and the background loop of the tuple index act, if each keeps acting when it can, every create, commit and delete that is made ends, no matter how many other calls keep arriving: no call waits for ever for a signal, a batch or another object's writers. A create ends with an answer unless the store has no room for it; every commit and delete ends with an answer.", "quantifier": "every configuration, every infinite fair schedule of calls, device writes and background loop, every number of calls and every fill level", "why_tests_cant": "A lost wake-up or a starved call only shows under particular interleavings of signals and snapshots; no finite test distinguishes a hang from a long wait.", "anchors": ["libblobd-direct/src/tuples.rs:Tuples::start_background_commit_loop", "libblobd-direct/src/tuples.rs:Tuples::insert_object", "libblobd-direct/src/object/mod.rs:Object::update_state_then_ensure_no_writers", "libblobd-direct/src/op/create_object.rs:op_create_object", "libblobd-direct/src/op/commit_object.rs:op_commit_object", "libblobd-direct/src/op/delete_object.rs:op_delete_object"]}
{"id": "C70", "title": "Device accesses are whole pages, stay in their region and do not collide", "statement": "Whatever calls are in progress, every write handed to the device by the KV and direct stores starts at a small-page boundary, consists of a whole, nonzero number of small pages and lies inside the region it belongs to (heap, log ring, tuple or bundle area); so do the reads of any part of a stored value. Two writes in flight at the same time never share a byte (except two writers of the same part of the same upload), and no log write touches a record that has not been committed yet. The lite store's writes likewise lie inside the region they belong to (bucket cells, journal, heap), never share a byte with another write in flight unless both are parts of one upload, and nothing else on the device changes.", "quantifier": "every configuration, every history and schedule of calls, background work, crashes and restarts, every value size and every read range", "why_tests_cant": "Alignment and overlap depend on the combination of sizes, allocator history, ring position and what happens to be in flight; a test sees a handful of those, and an unaligned or misdirected write is only noticed when a device refuses it or when other data turn out to be damaged.", "anchors": ["libblobd-direct/src/backing_store/mod.rs:PartitionStore::write_at", "libblobd-direct/src/tuples.rs:Tuples::start_background_commit_loop", "libblobd-direct/src/op/create_object.rs:op_create_object", "libblobd-direct/src/op/write_object.rs:op_write_object", "libblobd-direct/src/op/read_object.rs:unaligned_read", "libblobd-kv/src/log_buffer.rs:LogBuffer", "libblobd-kv/src/op/write_object.rs:op_write_object", "libblobd-kv/src/op/read_object.rs:op_read_object", "libblobd-lite/src/op/create_object.rs:op_create_object", "libblobd-lite/src/op/write_object.rs:op_write_object", "libblobd-lite/src/journal/real.rs:start_loop"]}
{"id": "C71", "title": "Lite store: every call ends", "statement": "Whatever the order in which calls, the journal's timer and flusher and their device writes act, if each keeps acting when it can, every create, write, commit, delete, inspect and read lookup ends: it is answered unless its caller drops it (or a create finds no room). Walks along a bucket's list come to its end, every journal transaction is acknowledged, and every bucket lock is given back.", "quantifier": "every configuration, every infinite fair schedule of calls, journal and device writes, every number of calls and every fill level", "why_tests_cant": "Hangs, endless walks and lost acknowledgements only show under particular interleavings; no finite test distinguishes a hang from a long wait.", "anchors": ["libblobd-lite/src/journal/real.rs:RealJournal", "libblobd-lite/src/bucket.rs:ReadableLockedBucket", "libblobd-lite/src/bucket.rs:WriteableLockedBucket::delete_object", "libblobd-lite/src/op/create_object.rs:op_create_object", "libblobd-lite/src/op/commit_object.rs:op_commit_object", "libblobd-lite/src/op/delete_object.rs:op_delete_object", "libblobd-lite/src/overlay.rs:Overlay"]}
{"id": "C72", "title": "Server: every byte a GET returns was uploaded for that object", "statement": "Whatever requests any clients send and however they interleave with each other, with torn device writes and with crashes and restarts, every byte of the body of a successful GET of a visible object was sent, for the upload this object was committed from and at this very position, in the body of a write request the server let through. In particular an object shows no byte of a deleted or foreign object, and when all writes of an upload agree with one byte string, a GET returns that string.", "quantifier": "every configuration, every interleaving of create, write, commit, delete and read requests (honest or not, tokens not forged), every tearing of device writes and every crash and restart point, every range of every GET", "why_tests_cant": "Joins token checks, the bookkeeping of uploads and device writes, allocation and restart; a leak shows only for particular histories of deleted objects, receipts and crash points.", "anchors": ["blobd/src/endpoint/create_object.rs:endpoint_create_object", "blobd/src/endpoint/write_object.rs:endpoint_write_object", "blobd/src/endpoint/commit_object.rs:endpoint_commit_object", "blobd/src/endpoint/read_object.rs:endpoint_read_object", "blobd/src/ctx.rs:HttpCtx", "libblobd-direct/src/op/write_object.rs:op_write_object", "libblobd-direct/src/op/commit_object.rs:op_commit_object"]}
{"id": "C73", "title": "Stress tester: \"all done\" means every object was tested", "statement": "When the stochastic stress tester prints \"all done\", every configured object was created with its size, written in full, committed, found with its size, read back in full with the right bytes, and deleted, under a key no other object uses, whatever the interleaving of the workers and whatever the store answered. A read answered with other bytes fails the run. Against a correct store no run fails, none goes on for ever, and each ends with \"all done\".", "quantifier": "every configuration, number of workers, interleaving of workers, choice of tasks and of read ranges, and every behaviour of the store under test (for the last sentence: every behaviour of a correct store)", "why_tests_cant": "The tester is itself what unit tests would need; that it neither skips an object nor passes a wrong answer must hold for all schedules and all answers of the store.", "anchors": ["stochastic-stresser/src/main.rs:main", "stochastic-stresser/src/main.rs:Task", "stochastic-stresser/src/main.rs:Pool", "store/src/lib.rs:Store"]}
{"id": "C74", "title": "Device accesses transfer exactly the addressed bytes or fail", "statement": "Whatever the operating system answers (short transfers, interruptions, errors), a device read that is answered returns as many bytes as were asked for, each the byte stored at that place; a write that is answered has replaced exactly its range and a failed one nothing outside it. Stores that share a device (partitions, tuple area, heap) never see or disturb one another: each acts like a disk of its own. Formatting blanks the tuple or bundle area and nothing else, and a formatted store of any size can be opened: every access inside the device succeeds on a healthy system.", "quantifier": "every access size and offset, every answer of the operating system, every behaviour of other users of the device, every set of windows that do not overlap and every history of calls through them, every area size and page size", "why_tests_cant": "Short transfers and interruptions are up to the kernel and hardly ever occur in tests; areas of gigabytes are not made by tests; that windows are separate must hold for all histories.", "anchors": ["libblobd-direct/src/backing_store/mod.rs:PartitionStore", "libblobd-direct/src/backing_store/mod.rs:BoundedStore", "libblobd-direct/src/backing_store/file.rs:FileBackingStore", "libblobd-direct/src/backing_store/uring.rs:UringBackingStore", "libblobd-kv/src/backing_store/mod.rs:BoundedStore", "libblobd-kv/src/object.rs:format_device_for_tuples", "libblobd-kv/src/object.rs:load_tuples_from_device", "libblobd-direct/src/tuples.rs:load_raw_tuples_area_from_device", "libblobd-direct/src/objects.rs:format_device_for_objects", "libblobd-lite/src/device/real.rs:DsyncFile", "libblobd-lite/src/device/mock.rs:MockDevice"]}
{"id": "C75", "title": "Reported metrics are true", "statement": "Since the store was opened, the counters of create, commit, write, delete and inspect calls are the numbers of such calls that succeeded. Whenever no call is in progress, the counters of incomplete and of committed objects and of their metadata and data bytes are the numbers and lengths of the objects that are stored, after any history of calls and restarts; while calls are in progress they are off by no more than those calls.", "quantifier": "every history of calls in every interleaving, with crashes, restarts and dropped calls", "why_tests_cant": "Counters drift through rare interleavings, failed calls and restarts; a test compares them after a few chosen calls.", "anchors": ["libblobd-direct/src/metrics.rs:BlobdMetrics", "libblobd-direct/src/op/create_object.rs:op_create_object", "libblobd-direct/src/op/commit_object.rs:op_commit_object", "libblobd-direct/src/op/delete_object.rs:reap_object", "libblobd-direct/src/op/delete_object.rs:op_delete_object", "libblobd-direct/src/op/inspect_object.rs:op_inspect_object", "libblobd-direct/src/objects.rs:load_objects_from_device", "libblobd-lite/src/metrics.rs:BlobdMetrics", "libblobd-lite/src/op/create_object.rs:op_create_object", "libblobd-lite/src/bucket.rs:delete_object", "libblobd-lite/src/lib.rs:load_object_list", "libblobd-kv/src/metrics.rs:BlobdMetrics", "libblobd-kv/src/op/write_object.rs:op_write_object", "libblobd-kv/src/op/delete_object.rs:op_delete_object", "libblobd-kv/src/log_buffer.rs:start_background_threads", "libblobd-kv/src/object.rs:load_tuples_from_device"]}
{"id": "C76", "title": "Benchmark results stand for the work they claim", "statement": "The benchmark runner writes results only if every phase (create, write, commit, inspect, random read, read, delete, as configured) did its work completely on every object, with at most the configured number of calls in flight: each object created once, written entirely in order, committed with its own token, inspected, read entirely with the bytes that were written, deleted. Against a correct store no check fails, every run ends with results, and the store holds afterwards what the options say. The reported percentiles are such quantiles of one latency per object.", "quantifier": "every configuration, number and size of objects, order and interleaving of the tasks, and every behaviour of the store", "why_tests_cant": "Tests run a few configurations against working stores; the claim is about every schedule and every answer of the store, including wrong ones.", "anchors": ["benchmark-runner/src/main.rs:run_benchmark", "benchmark-runner/src/main.rs:calculate_percentiles", "benchmark-runner/src/main.rs:shuffle_indices", "benchmark-types/src/lib.rs:LatencyStats"]}
{"id": "C77", "title": "Byte counters account for the bytes moved", "statement": "Every read and write of object data adds to the reported byte counters exactly what it did: the bytes reported as requested are those asked for, the bytes reported as sent are those handed to the caller, the bytes reported as written or padding are those written to the device, and the bytes reported as discarded are those read from the device and not handed out. Only successful calls are counted.", "quantifier": "every object, range, buffer size, chunking of the body, device contents and page size, with the object deleted or the call dropped at any point", "why_tests_cant": "Alignment and padding depend on every combination of range, buffer and page sizes, and on where a call is interrupted; tests look at a few aligned cases.", "anchors": ["libblobd-direct/src/metrics.rs:BlobdMetrics", "libblobd-direct/src/op/read_object.rs:op_read_object", "libblobd-direct/src/op/read_object.rs:unaligned_read", "libblobd-direct/src/op/write_object.rs:op_write_object", "libblobd-kv/src/metrics.rs:BlobdMetrics", "libblobd-kv/src/op/read_object.rs:op_read_object", "libblobd-kv/src/op/write_object.rs:op_write_object", "libblobd-kv/src/op/write_object.rs:allocate_object_on_heap"]}
{"id": "C78", "title": "Uploads are accepted while there is room", "statement": "A create_object call is answered with a new upload, and not refused or lost in a panic, whenever the device has room for it: as many large-page places as its data takes pages, one more for its metadata, and (direct store) a tuple slot are not touched by any stored object or call under way. Which commits, deletes, reads and writes go on meanwhile does not matter.", "quantifier": "every configuration, history, object size and key, schedule, and set of other calls under way", "why_tests_cant": "Whether a buddy heap still has a page depends on the whole history of allocations and releases, and the answer to a create also depends on how its steps interleave with others'; tests fill a heap in a few orders.", "anchors": ["libblobd-direct/src/op/create_object.rs:op_create_object", "libblobd-direct/src/allocator/mod.rs:Allocator", "libblobd-direct/src/tuples.rs:Tuples", "libblobd-lite/src/op/create_object.rs:op_create_object", "libblobd-lite/src/allocator.rs:Allocator"]}
{"id": "C79", "title": "What is given to a client library is what the server acts on, and its answer is what the caller gets", "statement": "For every call made through the Rust or JavaScript client library, the request line, query string, headers and body it puts on the wire are understood by the server as exactly the call that was made: the same key, size, offset, range, upload token, receipts and bytes, whatever characters they contain. The server carries out that call on the store (or refuses it) and what the library gives its caller is what the store answered: the upload token, receipt, id and size, count or bytes, or an error with the server's status.", "quantifier": "every key, size, offset, range, token, receipt list, body, server secret, time, and answer of the store", "why_tests_cant": "Two encoders, a parser, two sets of extractors and two header readers must agree for every byte sequence that can be in a key or a parameter; tests use plain keys.", "anchors": ["blobd-client-rs/src/lib.rs:BlobdClient", "blobd-client-js/src/main.ts:BlobdClient", "blobd/src/endpoint/create_object.rs:endpoint_create_object", "blobd/src/endpoint/write_object.rs:endpoint_write_object", "blobd/src/endpoint/commit_object.rs:endpoint_commit_object", "blobd/src/endpoint/inspect_object.rs:endpoint_inspect_object", "blobd/src/endpoint/read_object.rs:endpoint_read_object", "blobd/src/endpoint/delete_object.rs:endpoint_delete_object", "blobd/src/endpoint/batch_create_objects.rs:endpoint_batch_create_objects"]}
{"id": "C80", "title": "Lite: what was uploaded is what is read", "statement": "An object of the lite store all of whose parts were uploaded by write_object calls answered with success holds, for as long as it exists, exactly the bytes of the bodies of those calls, each at its place; every range read from it yields exactly these bytes, however the bodies were cut into chunks and whatever other calls (uploads of other parts, creations, commits, deletions, journal flushes) ran meanwhile.", "quantifier": "every body, its division into chunks, number and order of parts, and interleaving of any number of calls with the journal", "why_tests_cant": "The bytes pass through a per-call buffer and are written page by page while other calls allocate, free and overwrite pages; whether some schedule puts a byte elsewhere depends on the page ownership of all objects at every moment.", "anchors": ["libblobd-lite/src/op/write_object.rs:op_write_object", "libblobd-lite/src/op/create_object.rs:op_create_object", "libblobd-lite/src/op/commit_object.rs:op_commit_object", "libblobd-lite/src/op/read_object.rs:op_read_object", "libblobd-lite/src/object.rs:calc_object_layout"]}
{"id": "C81", "title": "An upload can be continued until it is committed, and is committed at most once", "statement": "From the answer to create_object until a commit_object of that upload takes effect, no write or commit for it is told that it does not exist, whatever other calls (for this or other keys) run meanwhile. Of any number of commit_object calls for one upload (retries, duplicates, concurrent ones) at most one is answered with success and it takes effect once, also if the process crashes and the store is reopened in between.", "quantifier": "every number, order and interleaving of create, write, commit, delete and lookup calls, and every crash point", "why_tests_cant": "Whether an upload is found depends on a walk along a list (lite) or a lookup in a map (direct) that other calls change at the same time; duplicates race with each other and with the background writer; no set of runs covers the interleavings.", "anchors": ["libblobd-lite/src/op/commit_object.rs:op_commit_object", "libblobd-lite/src/op/write_object.rs:op_write_object", "libblobd-lite/src/bucket.rs:find_object", "libblobd-direct/src/op/commit_object.rs:op_commit_object", "libblobd-direct/src/op/create_object.rs:op_create_object"]}
{"id": "C82", "title": "The benchmark report shows exactly the results that were recorded", "statement": "Every results file the benchmark runner writes is taken by the plotter under its object size, each exactly once, and no other file is. The page it generates gives the browser exactly the recorded data, whatever characters names, paths and settings contain, and publishes no credentials of the benchmarked stores.", "quantifier": "every number of objects and object size, every set of result files, and every text in the results and their configuration", "why_tests_cant": "The data passes through two layers of escaping (JSON, then a JavaScript string literal) and HTML's rules for where a script ends; whether every text survives them is a statement about all texts.", "anchors": ["benchmark-plotter/src/main.rs:parse_filename", "benchmark-plotter/src/main.rs:load_results", "benchmark-plotter/src/main.rs:generate_html", "benchmark-types/src/lib.rs:Config", "benchmark-runner/src/main.rs:run_benchmark"]}
{"id": "C83", "title": "Downloading with the command-line tool prints exactly the requested bytes", "statement": "When `blobc get` ends with status 0, standard output holds exactly the bytes of the object in the range asked for, in order, each of them uploaded for this object at this position; otherwise at most a beginning of them, or nothing if the object does not exist or the range does not lie within it.", "quantifier": "every key, range, object, history of the server with any number of partitions, every way the response is cut into chunks or breaks off, and every order in which the runtime's threads write what they were handed", "why_tests_cant": "The order in which the runtime's threads carry out writes to standard output, and whether they get to run before the process exits, differs from run to run; a test on a small object sees one schedule and one chunk.", "anchors": ["blobc/src/get.rs:cmd_get", "blobc/src/main.rs:CmdGet", "blobd-client-rs/src/lib.rs:read_object", "blobd/src/endpoint/read_object.rs:endpoint_read_object"]}
{"id": "C84", "title": "The benchmark chart shows every run, and nothing else", "statement": "For every metric, the chart of the benchmark page has one line for each benchmark that has the measurement, with a point for every run of it at the run's object size, whose value is that run's operations or bytes per second, time or amount (normalised: as a multiple of the `direct` run of that size); nothing else is shown, points are in order of size, and the chart does not depend on the order in which the files are found.", "quantifier": "every set of results files, in every order the directories list them, every benchmark, metric and object size, and all figures in them", "why_tests_cant": "The order of directory listings and of hash maps differs between machines and runs, so a test sees one order; which combinations of benchmarks, sizes and missing measurements occur is up to what was run before.", "anchors": ["benchmark-plotter/src/index.js:metrics", "benchmark-plotter/src/index.js:updateMainChart", "benchmark-plotter/src/index.js:getDisplayName", "benchmark-plotter/src/main.rs:load_results", "benchmark-runner/src/main.rs:run_benchmark"]}
{"id": "C85", "title": "With versioning, committed versions stay and the last one is found", "statement": "In a store whose configuration turns versioning on, every version that was committed under a key is found by its id until it is deleted, whatever is committed under the key later, and a lookup that names no version finds the one committed last.", "quantifier": "every configuration, history of calls on any number of keys and versions in any order of creation and commit, in which changes of a bucket do not overlap with other calls of that bucket", "why_tests_cant": "The order of creations and commits of versions is up to the clients; tests commit each version before creating the next.", "anchors": ["libblobd-lite/src/op/commit_object.rs:op_commit_object", "libblobd-lite/src/bucket.rs:find_inode", "libblobd-lite/src/lib.rs:BlobdCfg", "blobd/src/conf.rs:Conf", "blobd/src/main.rs:main"]}
{"id": "C86", "title": "The texts of the benchmark chart say the values", "statement": "In the page of benchmark results the text over a point, and the text at each mark of an axis, can be read as the value it stands for: a number and a unit of the metric's kind, off by no more than rounding; and marks at different places have different texts.", "quantifier": "every metric, set of runs and non-negative value", "why_tests_cant": "There are no tests of the page, and which unit and how many digits are used depends on the value.", "anchors": ["benchmark-plotter/src/index.js:formatBytes", "benchmark-plotter/src/index.js:formatBytesAxis", "benchmark-plotter/src/index.js:formatBytesPerSecAxis", "benchmark-plotter/src/index.js:formatTimeAxis", "benchmark-plotter/src/index.js:formatPercentageAxis", "benchmark-plotter/src/index.js:getTickFormatter", "benchmark-plotter/src/index.js:updateMainChart"]}
{"id": "C87", "title": "The counters of log flushes add up", "statement": "The KV store's counters of log flushes show what was flushed since it was opened: the number of flushes and of their entries, the bytes of data and of padding, which together are the bytes written, and how many flushes had at most 4 KiB, 64 KiB, 1 MiB and 8 MiB without padding, every flush in one of these classes.", "quantifier": "every configuration, execution (any calls, any sizes of flushes) and moment", "why_tests_cant": "Sizes of flushes depend on timing and load; boundaries and large flushes do not occur in tests, and no test reads the counters.", "anchors": ["libblobd-kv/src/log_buffer.rs:start_background_threads", "libblobd-kv/src/metrics.rs:Inner"]}
{"id": "C88", "title": "The counters of log entries add up", "statement": "The KV store's counters of log entries (writes, bytes written, deletes) show exactly the requests acknowledged since the store was created; after a restart, those whose entries were replayed from the log and those acknowledged since, each once. The bytes are those of the values, wherever they are kept.", "quantifier": "every configuration, execution (any calls, interleavings, restarts and crashes) and moment", "why_tests_cant": "Counts depend on where a crash or restart meets the log, and no test reads the counters.", "anchors": ["libblobd-kv/src/log_buffer.rs:load_from_device", "libblobd-kv/src/log_buffer.rs:start_background_threads", "libblobd-kv/src/metrics.rs:Inner", "libblobd-kv/src/object.rs:len"]}
{"id": "C89", "title": "The counters of background commits add up", "statement": "The KV store's counters of background commits show, since it was opened: how many commits began; how many entries they took, one for every key of the requests acknowledged since the commit before (at first: also of those replayed); how many bundles they had to update and how many they have written; and how many values, of how many bytes, were moved from the log to the heap, because they are too large for a bundle. When no commit runs, the bundles to update and those written are as many, unless an update of a bundle was lost, and then they stay apart for good.", "quantifier": "every configuration, execution (any calls, interleavings, restarts and crashes) and moment", "why_tests_cant": "What a commit takes depends on timing; no test reads the counters.", "anchors": ["libblobd-kv/src/log_buffer.rs:start_background_threads", "libblobd-kv/src/metrics.rs:Inner"]}
