# Formal model of wilsonzlin/blobd in Lean 4

## 1. Approach

The Rust source in /repo is read as text and transcribed, function by function, to total Lean definitions
(`lean/Verif/Model/*.lean`). Every definition cites the file and lines it models; `tools/check_cites.py` checks
that every citation lies inside the cited file. Conventions:

* A panic (`assert!`, `unwrap`, slice index, a failing `u16!`/`u32!` conversion) is an explicit failure value
  (`none`, `.panic`, or a recorded fault), never a silently totalised value.
* A loop is structural recursion, fuelled recursion with a proof that the fuel suffices, or a `step` function
  whose termination is itself a theorem (C22: the code does *not* always terminate).
* Integers are `Nat` unless the property is about widths; then truncation is explicit (`% 2^k`, byte lists).
* Concurrent code is an inductive step relation: one step is one lock section, one map operation, the start of a
  device write or its completion. A schedule is any sequence of steps. While a device write is in flight its
  target range may hold arbitrary bytes (torn writes), unless the code relies on single-page atomicity and says so.
* A crash is a step that forgets everything but the device.

Layout of the Lean project:

| directory | contents |
|---|---|
| `Verif/Spec/` | the vocabulary of the statements: byte memory, abstract maps, abstract logs, disjointness, histories. Small; to be read together with `Props`. |
| `Verif/Model/` | the transcription of the code |
| `Verif/Proofs/` | invariants and lemmas |
| `Verif/Props/` | the property theorems `Cnn_…`, each with an `example` that a concrete case meets its hypotheses |

A theorem whose name ends in `_partial` proves part of the property; a theorem whose name contains `_violated_` is
a kernel-checked proof that the *unchanged code* does not have the property, by a concrete reachable execution.
Where the property is false of the code, both are given: the witness, and the strongest positive statement found.

## 2. Trusted base

* Lean 4.33.0's kernel. The only axioms any theorem depends on are `propext`, `Classical.choice` and `Quot.sound`.
  No axioms are added, no compiled evaluation is trusted. `decide +kernel` is used on closed terms only, i.e. for
  concrete witnesses (violations and non-vacuity examples), never to cover an infinite domain.
* The reading of the Rust code (the model is hand-written; nothing is extracted).
* Dependencies, taken at their documented contract:
  * `off64`: `create_/write_uNN` keep the low bytes, `read_uNN` inverts; the checked macros panic on overflow.
  * `roaring`/`croaring` bitmaps: finite sets; `DashMap`, `parking_lot` and `tokio` locks: atomic
    sections; `tokio`/`crossbeam` channels: FIFO queues that lose nothing.
  * `rmp_serde`: the MessagePack format for the few shapes used (Model/MsgPack), proved injective/invertible here.
  * `blake3` as key hash and as keyed MAC: collision-free on the keys in play (C33–C35), unforgeable (C41, C42).
  * `bitcode`: an opaque encoding of a journal write; C48 only needs that the record can be decoded.
  * `url`, `axum`, `headers`, `percent-encoding`, `data_encoding`: path parsing, range header parsing and base64 by
    their documented behaviour (Model/Url, Model/Http, Model/HttpRead).
  * random 128-bit ids never repeat.
* The device: a write whose completion was awaited is durable (the direct and KV code issues no fsync for tuples,
  bundles and log; the model grants the device that strength). One small page is written atomically, as the
  configuration demands of the device. Everything else may tear.

## 3. What is modelled, and what is not

| module | models | not modelled |
|---|---|---|
| Util, Bytes, Mem | `util.rs`, off64, byte device | u64 wrap-around of device offsets (below 2^48 by configuration) |
| Layout | `calc_object_layout`, `TailPageSizes`, `TailPageSizesBuilder` | |
| Buddy | lite/direct `allocator/mod.rs` completely | prometheus-style metrics other than `allocated_bytes` |
| KvAlloc | kv `allocator.rs` completely | |
| Merge, Journal, Overlay | lite `journal/merge.rs`, `journal/real.rs`, `overlay.rs` | the `mock` journal; timing of the flush interval |
| LiteObject, LiteStore, LiteStart, LiteUpload | lite `lib.rs` (startup), `object.rs`, `bucket.rs`, `op/{create,commit,delete,inspect}_object.rs`, lookups of read/write | torn direct pointer writes, UI/metrics |
| ReadWrite, ConcWrite | `op/read_object.rs`, `op/write_object.rs` of lite and direct from the found object on, unaligned reads | buffer pool recycling |
| DirectTuple, DirectTuples | direct `object/mod.rs` tuple codec, `tuples.rs` | |
| DirectMeta, MetaPage | `ObjectMetadata` codec and page-size choice | metadata of years before 1970 |
| DirectStore | direct `op/*.rs`, `objects.rs`, `metrics`-free, with crash and restart | several partitions at once (C45 routes; partitions share nothing: C40) |
| Exporter | direct `exporter.rs` | |
| KvObject, KvOps | kv `object.rs`, `op/*.rs` | |
| KvLog, KvStore | kv `log_buffer.rs` completely, start-up replay, bundle loading and commit | `bundle` write ordering inside one io_uring submission |
| Regions | partition arithmetic of the three libraries, `BoundedStore`, `PartitionStore` | |
| Http, HttpRead, Batch, Url, MsgPack | `blobd-token`, `blobd/src/endpoint/*`, routes in `server.rs`, request building in `blobd-client-rs` | TLS/hyper, timeouts, retries |
| Wire | query strings, extractors of `blobd/src/endpoint/*`, reply headers, reading of replies in `blobd-client-rs` and `blobd-client-js` | `form_urlencoded`, `url`, `serde_urlencoded`, `headers`, `reqwest`, `fetch`, `CorsLayer` by their documented behaviour; non-ASCII parameter text; transport errors |
| JsClient, RustClient, Cli | `blobd-client-js/src/tokens.ts`, URLs, ranges and batches of `main.ts`; requests of `blobd-client-rs`; `blobc` put, get, upload_dir | progress display, files that change while being read, symbolic links |
| Device | file- and io_uring-backed stores of direct and kv, lite's `O_DSYNC` file and mock device, partition and bounded windows, the accesses of formatting and opening | `O_DIRECT` alignment (C70), device caches (C28, C35), files that grow |
| DirectCluster, Server | direct `lib.rs` with several partitions; the HTTP endpoints over it, with crashes | batch creation inside `Server` (C43) |
| Capacity | the tuple area of the direct store, `FreeTuples` | |
| DirectMetrics, LiteMetrics, KvMetrics, KvFlushMetrics, KvEntryMetrics, KvCommitMetrics, DirectIo, KvIo | `metrics.rs` of the three libraries, counters of reads and writes | counters of times of the KV log |
| StoreAdapters | `store/src` (fs, s3, rocksdb, lite, kv, direct) | the file system, S3 and RocksDB are represented by what they promise |
| Stresser, Benchmark, Plotter, PlotChart, PlotText | `stochastic-stresser`, `benchmark-runner` with its latency figures, `benchmark-plotter` | random choices (any choice is allowed), system metrics, the axes, colours and texts of the chart in the browser |

Not modelled at all: parsing of command lines and configuration files, logging, process statistics (`/proc`).

## 4. Per-property plan and outcome

"R" marks properties that are proved by an invariant over every reachable state of a step relation; "A" those that
are algebraic statements about functions.

| id | model | statement and proof |
|---|---|---|
| C01 | Layout | A. Strong induction on the remaining small pages: sum of page sizes = size rounded up; tail pages strictly decreasing; different sizes (mod small page) have different layouts. `C01_lpage32_panics`: with the documented maximum of 2^32-byte large pages the packed descriptor overflows and the code panics. |
| C02 | Layout | A. Bit arithmetic on the two words: builder then reader is the identity on lists of ≤ 24 exponents < 32, and both limits are sharp. |
| C03–C07 | Buddy | R. Invariant: free blocks and live pages partition the heap, no two free buddies. A canonical-form lemma (the set of live pages determines the free map) gives C05 and C07; C06 is an iff about aligned blocks. |
| C08 | Buddy | R. Byte conservation from the partition invariant. The metric is wrong after a failed allocation (violation proved). |
| C09, C10 | KvAlloc | R. Same machinery, a request is a run of pages. The used-space metric never decreases (violation proved). |
| C11, C12 | Merge | A. Induction over insertions; merged map is sorted and disjoint, applying it equals applying the writes in order, in any permutation and with repetitions. |
| C13 | Overlay | R. Serial numbers: every pending value is visible until its own or a later acknowledgement. |
| C14 | LiteObject | A. Byte-level encode/decode for every key, page list and custom header; sharp size limit 2^40. |
| C15, C16, C52, C49 lite | LiteStore | R. Refinement of the interleaved store (journal, overlay, allocator and bucket chains on one device) to an abstract map of version lists. Sequential executions in full; overlapping ones outside four excluded events, each shown necessary by a reachable counter-execution. Overlapping calls in full, too, when callers keep changes of a bucket apart from its other calls (Spec/LiteApart, Props/LiteApart, also for C65, C67, C70, C71, C75, C80, C81): every overlay entry of a bucket is held by a running change of that bucket, and ids are handed out once, so none of the excluded events can occur. |
| C17 | LiteObject | A. Round trip of bucket pointers; start-up path shifts the wrong way (violation proved). |
| C18–C23, C31 | ReadWrite, ConcWrite | A over a byte device; induction over pages for the read stream, over stream chunks for the write loop; C20 also for concurrent writers (R). Violations: a body shorter than declared never ends, an empty chunk panics. |
| C24–C26 | DirectTuple(s) | codec A; index R with a background commit loop. C26 is false: a filled bundle is never offered again. |
| C27–C29, C51, C49 direct | DirectStore | R. One partition under all interleavings, crash points and restarts; refinement to an abstract store with linearisation points (C27); durability relation between the disk and the abstract history (C28). Five reachable violations. |
| C30 | MetaPage | A. Recorded size vs allocated size; false for metadata larger than a small page in direct. |
| C32 | Exporter | A. Induction over marker walks. |
| C33 | KvObject | A. Bundle codec; false for the empty key. |
| C34, C35, C49 kv | KvStore, KvDiscipline | R. Global invariant tying log buffer, overlay, bundles, heap and log bytes to the list of applied tasks. Violations: bundle overflow, heap tuples in the replayed log. KvDiscipline: a client within API-level limits never meets them, so the claims hold for it outright. |
| C36, C37 | KvLog | R. Ring log: replay equals what was recorded; no live byte overwritten. Violations for rings that are not a multiple of the small page and for long flushes. |
| C38–C40 | Regions | A. `omega`-style arithmetic, exact conditions; violations for KV (heap overlaps the log for every accepted configuration) and lite. |
| C41, C42, C46 | Http | R over histories of requests with an idealised MAC. Violations: upload tokens not bound to a key; a write receipt is accepted as an upload token. |
| C43 | Batch, JsClient | A. Parser of the body = sequence of creates, for every store, both clients; excess data after a declared size becomes objects. |
| C44 | HttpRead, JsClient | A. Exact responses; violations for suffix, empty and u64-max ranges and the JS client's end 0; the clients disagree on whether the end is inclusive. |
| C45 | Regions, LiteObject, KvObject | A. Routing arithmetic in range and a function of the key only. |
| C47, C48 | Journal | R. Device = prefix of committed transactions plus torn part of the current batch; the journal record suffices to recover, but recovery does nothing (violation). |
| C50 | Url, RustClient, JsClient | A. Round trip through URL building, WHATWG path parsing and `parse_key`, for both clients; exact image of every key (`resolveDots`) and exact set of surviving keys by a length argument. |
| C54 | Cli | A+R. Fold over completion orders for the receipts; C20 (concurrent writers), C42, C44 and C53 composed into one end-to-end theorem; exact condition on the page size. |
| C55 | Cli | A. Model of the walk, path joining and the batch body over an arbitrary file system; violations for every directory. |
| C56 | DirectSpace | A+I. Invariant: the allocator's live pages are exactly those of the objects known to the store or to an unfinished create; at quiescence compared with `Spec.Room`. Violation: out-of-space create. |
| C28, C29, C51, C56 | DirectDiscipline | A. The excluded events replaced by conditions on the observable history (`Calm`: one commit/delete per key at a time, no dropped write, small metadata, no restart after a crash inside a replacing commit); proof that these exclude every fault, and that an answered key keeps its object and bytes through any number of crashes (`Later`). |
| C57 | DirectSpace | A. No expiry code exists; proved that no step or restart removes an upload (violation for every execution). |
| C58 | DirectCluster | I+R. Partitions (DirectStore) stepping independently; routing invariant on every name ever used; the merged event list is a run of one abstract store (`Spec/DirectCluster`). |
| C53 | Http, RustClient, JsClient | A. Injectivity of both token encodings; first-byte argument that a JavaScript token message is never a server message. |
| C59 | Capacity, DirectTuples | I. Counting invariant over bundles; arithmetic of the documented formula. |
| C60 | StoreAdapters, StoreBlobd | I. Read loop by induction on the schedule of short reads; list algebra. |
| C61 | StoreAdapters, StoreBlobd | I. Sorting the parts of any permutation of the writes; overwriting disjoint pieces of a file. |
| C62 | Props/DirectUpload | Runs of the DirectStore transition system with crashes; the upload's life is followed backwards from its commit through crashes (Proofs/DirectTokens: token, call committing it, tuple on the device), its bytes change only by its own writes, those of a visible object not at all; then C28 (disciplined) and C18. C62_parts_write_pages links write_object's loop to its device writes; C62_uploaded_partial is the whole path. |
| C63 | Props/HttpMethods | Route table and endpoint arguments as functions of a raw request; case analysis over methods and endpoints. |
| C64 | LiteReopen, LiteLoad | I. Startup as a relation over one inode of one traversal at a time; reachable-state invariant re-established for the reopened state with the old allocator; runs that do not use the allocator simulate. Used space after startup by invariant over the traversals. |
| C65 | LiteReopen | I. With calls one at a time at most one transaction is pending, and the device outside the journal is the state before or after it (journal phase invariant, byte by byte). Overlapping calls: every overlay entry of a bucket is held by a ticket of an unanswered call that changed that bucket (invariant), so a bucket whose changes are all answered is read from the device alone. With commits pending (Proofs/LiteCommits): every pending one-byte write is the state "committed", and a listed inode's state byte on the device is always one of the two states (invariant over calls and journal steps), so it differs from the current one only by an unanswered commit of that object. With calls of a bucket kept apart (Proofs/LiteCreates, LiteDeletes, LitePending, Props/LiteCrash): an unanswered change of a bucket is its last (invariant), its transaction is either not written to places at all or, when the journal is between batches, wholly, and the versions before it are those of the run without it. |
| C66 | KvSpace | S. Ghost: the allocator's live list equals, up to permutation, the regions of bundle tuples plus those of heap tuples in the pipeline and overlay (Held), preserved by every step except an overlay overwrite of a heap entry; combined with the buddy canonicity theorem. Counterexamples by explicit runs; the stuck one by an invariant over all later steps and restarts. |
| C67 | LiteSpace | I. The allocator's live list is the pages of all records in existence; every record not listed is owned by a running call (own field of the invariant); with the buddy canonicity theorem, allocation succeeds exactly when there is room. |
| C68 | KvStore, Spec/KvProgress | W. Runs are infinite sequences of states with weak fairness per party; the pipeline calls → queue → flusher → log → completer is abstracted to the stages and well-founded measures show each stage drains; room in the log from a potential function over unlogged calls. |
| C69 | DirectStore, Spec/DirectProgress | W. Infinite runs with weak fairness for each call, data writes and the background loop; each call has a rank that every own step lowers; what it waits for (ticket, writers of a sealed object) is shown to come by measures on the loop's batch and on the writers. |
| C70 | KvStore, DirectStore, Spec/DeviceIo | I. From the store invariants: allocated regions are disjoint and aligned, the log's flights tile the ring between tail and vtail, and a bundle has exactly one page on its way to the device; the data write blocks by arithmetic on the layout. Lite (Spec/LiteIo): from the list and page-ownership invariant and the merge specification (every byte of a merged entry is a byte of a pending change). |
| C71 | LiteStore, Spec/LiteProgress | W. Infinite runs with weak fairness for each call, the journal's timer and its flusher, and finitely much overtaking at the bucket locks. Each call has a rank (for a walk, the length of the rest of the list, which nobody can change while the lock is held) that every own step lowers; transactions are followed through pending, queue and flight to the acknowledgement; locks become free because their holders end. |
| C72 | Server (Http, DirectStore, ReadWrite), Spec/Server | W. One transition system for the endpoints over the store's steps, with any number of partitions and one history of tokens for all: requests with their tokens, each write request's buffer, pages and device writes, commits, publishing, crashes. Invariant: bytes of finished pages of running requests, and of all pages of acknowledged parts of a living upload or of an object that came from it, are uploaded bytes; kept because only a device write of the same upload to the same page can change them (C29, C51, C62). |
| C73 | Stresser, Spec/Stresser | T. Transition system: queue, workers, counters and a ghost log of answered calls; the store is an open environment. Invariant: each pending task's remaining calls would complete the test of its object, pending object numbers are distinct, deletes plus pending is the number of objects. A second one relates the tester to a correct store. Termination by a measure (calls still to come). |
| C74 | Device, Spec/Device | T. The kernel is a relation of permitted answers; calls of the three stores are inductive relations over system calls interleaved with arbitrary steps of others; induction over the calls. Windows: refinement of a disk per window, induction over the history. Areas: induction over the pieces. |
| C75 | DirectMetrics, Spec/DirectMetrics | T. Counters ride on the execution relation of C27 (`MReach`); every execution has them (C75_direct_defined). Invariant: the counters equal the maps' contents plus what each call in progress still owes, by induction over steps and restarts; violations by runs of the model. Lite (LiteMetrics): every action is sorted by what it does to the lists and the counters, using the invariant of C15; then the same balance. KV (KvMetrics): object count = tuples of the bundles as the running commit sees them, heap bytes = what calls, log, overlay, commit and bundles hold plus what was lost with the space of C66, by induction using the invariant of C34. |
| C76 | Benchmark, Spec/Benchmark | T. Runs are a step relation over phases and tasks with any scheduling and any answers; invariant: each object is waiting, running or done and the calls about it so far are a prefix of what the phase should do. Against an ideal store: what it holds in each phase; a cost that every step lowers. Percentiles: error bound of the rounded product, counting in the sorted list. |
| C77 | DirectIo, KvIo | P. The loops of C18/C20 and the KV read and write instrumented with counters and a log of device reads and writes; per call, by induction over the loop, for every schedule of invalidations; projection theorems tie them to the plain functions. Violation by evaluation. |
| C78 | DirectRoom, LiteRoom | P. One allocation uses up at most one wholly free large page (Proofs/Room, from the allocator's canonical form), releases none; the number of free large pages and the known slot are kept by all steps but creates, so the step relation offers no panic; then the liveness results C69/C71 end the call, and the only answer left is the upload. |
| C79 | Wire | P. Model/Wire models form_urlencoded writing and parsing, the URL's query part, the extractors, replies and both clients' reading of replies. Parsing inverts writing for all ASCII parameters; duplicates of a parameter smuggled in through the key are the only way to be refused. Conversely Spec/WireRequest says what a request means and the server acts on exactly those that mean something (Props/WireRequest). |
| C80 | LiteUpload | P. Model/LiteUpload gives each write_object call of Model/LiteStore its body and the loop that cuts it into pages. Invariant: bytes of finished pages of every running or answered part are bytes sent for that place, since no other call may write pages of a listed object. |
| C81 | LiteStore, DirectStore | P. From the history of events (C15, C27): ids are handed out once, so by induction over the history the uploads there are exactly those created and not yet committed; a refusal or a second commit would contradict it. Across crashes with C28's invariant. |
| C82 | Plotter | P. The five replacements are one map on characters; a JavaScript string literal reader and a reader of HTML script text are written down separately and shown, by induction on the text, to give the text back. Groups: induction over the files. |
| C83 | CliGet | P. Transition system for the copy loop and the runtime's thread pool; invariants: what is printed, pending and lost is a permutation of the chunks handed over (any schedule), or their concatenation (in turn). Composed with the whole-server theorems (C72), the range endpoint (C44) and the wire (C79). |
| C84 | PlotChart | P. The metric table and the data collection of `updateMainChart` over exact numbers; specification by readings (`value × seconds = objects × bytes`) and by the set of runs in the files; sorted lists with the same members are equal gives independence of the order. |
| C85 | LiteVersions | P. Specification by a fold over the history (`versions`); induction over the abstract runs of C15, composed with C15 for all executions under the usage rule; for the server the same over C27 and `Conf.store`. |
| C86 | PlotText | P. Texts modelled to the character over exact rationals; the specification reads them back (`Num`, `Amount`, `Dur`, `Says`) independently of how they are written, and the theorems bound the difference for all values. |
| C87 | KvFlushMetrics | P. Counters added to all executions of the KV store (`FReach`); induction over executions against counts over the list of flushes. |
| C88 | KvEntryMetrics | P. Counters added to all executions of the KV store, from its creation or the last restart (`EReach`); induction over executions, with the store's invariant for what a restart replays. |
| C89 | KvCommitMetrics | P. Counters added to all executions of the KV store (`CReach`); the balance of bundles is checked for each step, the entries follow from the store's invariant on what the overlay holds. |

No property of the list is inexpressible in the model; parts that the model cannot exhibit (timing, real fsync
semantics, hash collisions) are in section 2.

## 5. Disagreements between property and code (findings)

Each has a theorem; the model follows the code.

1. Buddy `allocated_bytes` counts failed allocations (C08); the KV used-space metric never decreases (C10).
2. Lite: bucket heads are shifted the wrong way at start-up (C17). Recovery from the journal is a no-op (C48).
3. Lite: write stream that ends early loops for ever; an empty chunk panics (C22).
4. Lite: delete writes the predecessor's next pointer directly to the device under the wrong overlay key and
   without the journal; with a pending update it is lost (C15, C16).
5. Lite: `ObjectMeta` reads the record before the overlay, so a stale copy can be used (C15).
6. Direct and lite: dropping a `write_object` future releases the lock while the blocking write goes on (C29, C52).
7. Direct: tuple slots of a bundle that was full are never offered again (C26).
8. Direct: metadata larger than a small page is recorded with the wrong page size (C30).
9. Direct: start-up with two committed objects of one key keeps the older tuple but frees its pages (C28, C29);
   overlapping commits can be reordered by start-up (C28).
10. All libraries: deleting an object during a read lets the stream return another object's bytes (C49).
11. KV: a bundle that outgrows its page panics in a task whose panic is swallowed (C34); heap values referenced only
    from the replayed log are not reserved (C35); the empty key breaks bundle decoding (C33); rings not a multiple of
    the small page, and flushes longer than the replay buffer, are not replayed correctly (C36); the heap region
    overlaps the log region (C38).
12. Lite: heap may run past the device end (C39).
13. HTTP: tokens for write/commit are not bound to the upload (C41); a write receipt is accepted as an upload token
    (C42); suffix/empty/maximal ranges (C44); four errors share status 416 (C46); keys with URL-special characters
    are changed on the way (C50).
14. JavaScript client: every token it makes is refused by the server (C53); `readObject(key, a, 0)` returns the whole
    object (C44); batch data longer than its declared size is read as further objects (C43, both clients).
15. `blobc put` only works for files over one page if the server's large page is exactly 16 MiB (C54). `blobc upload-dir` never
    uploads a directory: the root entry aborts the request, or all files are looked up under the wrong path; success is
    reported without looking at the number of objects created (C55).
16. Direct: a create that runs out of space keeps every page it had already taken, until the next restart: one request for more
    than the free space fills the store (C56). Incomplete objects never expire although the configuration says so (C57).
17. Direct: adding a partition makes most committed objects unreachable (C58).
18. Direct: the tuple area is sized at 20 bytes per object (store adapter, documentation) but a tuple takes 24, so a store sized for N
    objects holds fewer as soon as 4N exceeds the rounding to large pages (C59).
19. `store` crate: file-system reads do not shorten the buffer (panic after a short read) and hang past the end; S3 ranges are off by
    one (C60); uploads through the file-system, RocksDB and KV adapters are visible before commit, empty ones fail or vanish (C61).
20. Lite: `load_buckets` reads heads with `>> 8` where `<< 8` is meant: a store that holds objects panics on startup, or opens with its
    pages unmarked (C64). A crash while a create is applied, or during a replacing commit, loses committed objects (C65).
21. KV: the heap space of a large value that is overwritten or deleted before the background commit is never released (until restart); and a commit
    allocates heap space before it releases any, so a full heap whose contents were deleted can stay full for good (C66).
22. Lite: `create_object` panics half way when the heap is full and keeps the pages it had taken; incomplete objects are never reclaimed: the
    setting `reap_incomplete_objects_after_secs` is stored and never read (C67).
23. KV: the flusher thread panics ("out of log buffer space") when the log is full: the calls it holds and all later ones hang. A burst of more
    than the log's size does it, and so does a commit threshold within a page of the log's size, which `BlobdLoader` accepts; the latter
    survives restarts because commits are only considered after a flush (C68).
24. Direct: deleting (or replacing) an object that a concurrent commit has made visible but not yet changed in the tuple index panics: the caller
    is not answered, the object is gone for readers, and it comes back after a restart (C69).
25. Lite: the fault of finding 4 (delete of an object with a predecessor bypasses journal and overlay) can also turn a bucket's list into a cycle,
    with all calls answered and nothing pending: every later lookup of an absent key in that bucket walks for ever, holding the bucket's lock (C71).
26. Server: with finding 13's confusion of write receipt and upload token, a client that may only write its own key can read bytes of deleted
    objects: it commits an upload whose second part was never written and GETs it (C72).
27. Stress tester: a failed check kills one worker task only; the others wait for ever because the count of deletes can no longer reach the
    number of objects, and main awaits the workers in order, so a failing run usually hangs (C73). Keys are up to 7 bytes longer than
    object_key_len_max; objects of maximum_object_size bytes are never tried.
28. Direct store: the tuple area is read by a single call (libblobd-direct/src/tuples.rs:202), but Linux transfers at most 2 GiB − 4 KiB per
    call and anything short is a panic: with a larger `object_tuples_area_reserved_space` (the documentation advises a high value) a
    partition formats and then never opens. KV splits the area, but rounds the piece up to the page size: with pages of 8 KiB or more and
    an area of 2 GiB or more even formatting panics (C74).
29. Direct store metrics: `committed_object_count` can show 2^64 − 1 (a delete may answer before the commit of the object it deletes), stays
    wrong after the panic of finding 24, and the byte counters stay too high after a start that found two versions of one key. Lite store: `incomplete_object_count` never
    changes after opening; `object_metadata_bytes` falls below zero (creates add the length, deletes subtract the page size) (C75).
    KV store: `heap_object_data_bytes` stays too high when a large value is overwritten or deleted before a background commit took it up;
    `object_count` stays wrong after a bundle's panic (C75).
30. Benchmark runner: the length of read streams and the answers of inspect are never compared with anything, so a store that returns nothing passes;
    `--skip-creation` compares the objects of an earlier invocation with a newly drawn pool and therefore always panics; random reads never reach the last
    byte (C76).
31. Direct store metrics: `write_op_count` and `write_op_bytes_requested` are bumped before the body is received, so failed writes count, although
    metrics.rs says only successful calls do (C77).
32. Client and server disagree on parts of the interface: a streamed body (the documented form of `write_object` in both libraries) has no Content-Length and is refused with 400; `read_object` with an end but no start ignores the end; a key whose query part names one of the method's parameters is refused; from another origin (which CORS allows) no upload can be made, since no response header is exposed. The configuration field `versioning` of the server is read and used nowhere. (C79)
33. The benchmark plotter writes the whole configuration of a benchmark into the page it generates, so every report with results of an S3 benchmark has the secret access key in it (`C82_violated_secret`); a path or name with `</script>` in it ends the page's script early (`C82_violated_script`). (C82)
34. `blobc get` (C83). (a) `blobc/src/get.rs:15` makes a new tokio `Stdout` for every chunk and never flushes: `write_all` only hands the bytes to the thread pool, so chunks can be printed in the wrong order, and the last ones lost when `main` returns, with status 0. (b) `--end` is sent as the inclusive last byte: `--end e` prints `e + 1` bytes, `--end <size>` is refused with 416, and `--end 18446744073709551615` prints nothing with status 0. (c) `cmd.start` (`u64`) is passed where the client takes `Option<u64>`: blobc does not compile at this commit.
35. Benchmark chart (C84). The runner keeps one results file for each number of objects and object size, and the plotter reads all of them, but the chart takes the first result of each benchmark and size (`benchmark-plotter/src/index.js:547-549`). After runs with other numbers of objects it shows one of them without saying which; which one depends on the order of the directory listing, also for the reference values of the normalised chart. A benchmark directory called `blobd` gets the same label as `direct`.
36. Versioning (C85). Lite: an object keeps the place in its bucket's list that it got when it was created, and lookups take the first committed one, so with `versioning` the current version is the one created last, not the one committed last. Server: `versioning = true` is accepted (`blobd/src/conf.rs:19-20`) and used nowhere: a commit removes the earlier version.
37. Texts of the benchmark chart (C86). Times are written with one digit after the point in seconds, so in a chart of latencies below 50 ms all five marks of the vertical axis say `0.0s`; the total numbers of disk operations have type `ops` and are shown over their points as `op/s`, a rate. `formatTime` is not used.
38. Counters of log flushes (C87, `libblobd-kv/src/log_buffer.rs:636-665`). The padding marker is counted as data, so with small pages of more than 4 KiB the classes of sizes are off at their bounds; flushes of more than 8 MiB (up to 128 MiB are possible) are in no class; the page written when the log wraps is in no byte counter.

## 6. Testing the theorems

`tools/mutate.py` applies realistic bugs to a scratch copy of the model, rebuilds and records which theorems fail, in
`seeded/LOG.jsonl`. A surviving mutant either changes nothing the property speaks about (a note says why) or led to a
tightened theorem.
