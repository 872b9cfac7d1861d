import Verif.Model.KvOps
import Verif.Model.KvLog
import Verif.Spec.KvAlloc
/-!
# KV store: the whole store as a transition system

`libblobd-kv/src/log_buffer.rs`, `op/write_object.rs`, `op/delete_object.rs`, `object.rs` (loading).
One step is one atomic action of one thread: a channel operation, one update under a lock, the start of a
device write (while it is in flight its target may hold anything) or its completion. All interleavings
are allowed. A write whose completion was awaited is durable; bundle pages and the state page (one small
page each) are written atomically, as the configuration demands of the device (libblobd-kv/src/lib.rs:71-72).

The device regions (bundles, heap, log data, log state) are separate memories here, i.e. assumed disjoint;
that the code's own configuration arithmetic breaks this is C38.
-/
namespace Blobd
namespace Kv

/-- configuration -/
structure StoreCfg where
  H : List Byte → List Byte
  log : LogCfg
  heap : Spec.KvHeapCfg
  bundleCount : Nat
  inlineThreshold : Nat
  commitThreshold : Nat

/-- an overlay map (libblobd-kv/src/log_buffer.rs:96-114): a DashMap from tuple key to `Upserted`/`Deleted` -/
abbrev Overlay := List (Key × Option Data)

def Overlay.insert (m : Overlay) (k : Key) (e : Option Data) : Overlay :=
  (k, e) :: m.filter (fun x => x.1 ≠ k)

def Overlay.get (m : Overlay) (k : Key) : Option (Option Data) :=
  (m.find? (fun x => x.1 = k)).map (·.2)

/-- inserting a sequence of log entries one after another (libblobd-kv/src/log_buffer.rs:243-245, 254-256, 556-569) -/
def Overlay.ofEntries (es : List (Key × Option Data)) : Overlay :=
  es.foldl (fun m e => m.insert e.1 e.2) []

/-- a `write_object` call whose heap write is under way (libblobd-kv/src/op/write_object.rs:60-69): the task it will send
and the device write it awaits -/
structure Prep where
  task : Task
  write : Nat × List Byte

/-- `(bundle index, overlay entries)`, libblobd-kv/src/log_buffer.rs:404-406 -/
abbrev Group := Nat × List (Key × Option Data)

/-- a bundle update under way (libblobd-kv/src/log_buffer.rs:456-488): the page has been read, some entries have been
applied to the in-memory map, `rest` are still to be applied -/
structure Work where
  idx : Nat
  map : List (Key × Data)
  rest : List (Key × Option Data)

/-- progress of a background commit (libblobd-kv/src/log_buffer.rs:350-519) -/
inductive Phase where
  /-- entries taken, not yet grouped -/
  | started
  /-- grouped; heap writes under way (426-442) -/
  | moving (writes : List (Nat × List Byte)) (groups : List Group)
  /-- bundles being updated (444-504): groups not begun, bundles being changed in memory, new pages being
  written -/
  | updating (todo : List Group) (work : List Work) (comp : List (Nat × List Byte))
  /-- head recorded (510-514), overlay not yet dropped (515) -/
  | headWritten
  /-- the commit task panicked while grouping (out of heap space, 374-376): it never ends -/
  | dead

structure Commit where
  upTo : Nat
  phase : Phase

/-- events after which some claims no longer hold; recorded so that theorems can exclude them -/
inductive Fault where
  /-- a bundle update task panicked (bundle overflow, ...); the panic is swallowed (502) -/
  | bundleTaskPanicked
  /-- the store was restarted while the log held a tuple pointing into the heap -/
  | heapTupleInReplayedLog
  /-- a flush longer than the replay buffer -/
  | oversizedFlush
  deriving DecidableEq

structure St where
  /-- heap area of the device -/
  heap : Mem
  alloc : KvAlloc
  /-- bundle pages of the device -/
  pages : Nat → List Byte
  log : LogSt
  /-- `write_object` calls awaiting their heap write -/
  preps : List Prep
  /-- `write_object` calls about to send their task -/
  ready : List Task
  /-- the channel to the flusher (276) -/
  queue : List Task
  /-- the flusher's `pending_log_flush` (597, 616) -/
  pending : List Task
  /-- tasks the completer is applying (547-581) -/
  inserting : List Task
  /-- all overlay maps ever created, by creation order; `cur` is `overlay.uncommitted`, `com` is
  `overlay.committing` (108-114) -/
  gens : Nat → Overlay
  cur : Nat
  com : Option Nat
  commit : Option Commit
  /-- ghost: every task issued by a call -/
  issued : List Task
  /-- ghost: every task applied to the overlay, in order; each is acknowledged right then (559, 570) -/
  applied : List Task
  /-- ghost, for proofs only: `applied` split into what bundles reflect, what a running commit works on
  and what is in the current overlay -/
  base : List Task
  cl : List Task
  ul : List Task
  faults : List Fault

/-- the bundle of a tuple key (libblobd-kv/src/log_buffer.rs:404-406, libblobd-kv/src/object.rs:163-166) -/
def bundleOf (c : StoreCfg) (k : Key) : Nat := bundleIndex (k.hash32 c.H) c.bundleCount

/-- libblobd-kv/src/object.rs:177-189 at read time (libblobd-kv/src/log_buffer.rs:754-764): first tuple with the key -/
def pageGet (page : List Byte) (k : Key) : Option Data :=
  ((((bundleDeserialise page).getD []).find? (fun t => t.1 = k))).map (·.2)

/-- one entry of a commit (libblobd-kv/src/log_buffer.rs:362-401): large inline values move to the heap. Returns the new
allocator and, unless the allocation panicked, the entry to commit and the heap writes. -/
def moveEntry (junk : Nat → Byte) (a : KvAlloc) (e : Key × Option Data) :
    KvAlloc × Option ((Key × Option Data) × List (Nat × List Byte)) :=
  match e with
  | (k, some (.inline d)) =>
    if d.length > 7 then
      match allocateOnHeap a d.length with
      | (.ok (off, sizeOnDev), a') =>
        (a', some ((k, some (.heap d.length off)), [(off, paddedBuf junk d sizeOnDev)]))
      | (_, a') => (a', none)
    else (a, some (e, []))
  | _ => (a, some (e, []))

/-- all entries, in the map's iteration order, under one allocator lock (libblobd-kv/src/log_buffer.rs:357-407) -/
def moveAll (junk : Nat → Byte) : KvAlloc → List (Key × Option Data) →
    KvAlloc × Option (List (Key × Option Data) × List (Nat × List Byte))
  | a, [] => (a, some ([], []))
  | a, e :: es =>
    match moveEntry junk a e with
    | (a1, none) => (a1, none)
    | (a1, some (e', ws)) =>
      match moveAll junk a1 es with
      | (a2, none) => (a2, none)
      | (a2, some (es', ws')) => (a2, some (e' :: es', ws ++ ws'))

/-- `into_group_map_by` (libblobd-kv/src/log_buffer.rs:404-406) -/
def groupsOf (c : StoreCfg) (es : List (Key × Option Data)) : List Group :=
  ((List.range c.bundleCount).map (fun i => (i, es.filter (fun e => bundleOf c e.1 = i)))).filter
    (fun g => g.2 ≠ [])

/-- `collect::<AHashMap<_, _>>()` (libblobd-kv/src/log_buffer.rs:463-464) -/
def collectMap (ts : List (Key × Data)) : List (Key × Data) :=
  ts.foldl (fun m t => t :: m.filter (fun x => x.1 ≠ t.1)) []

/-- libblobd-kv/src/log_buffer.rs:466-484: apply one overlay entry to the in-memory bundle, releasing the heap space of
the replaced tuple. The second component is `none` if the release panicked. -/
def applyEntry (a : KvAlloc) (m : List (Key × Data)) (e : Key × Option Data) :
    KvAlloc × Option (List (Key × Data)) :=
  let m' : List (Key × Data) := match e.2 with
    | none => m.filter (fun x => x.1 ≠ e.1)
    | some d => (e.1, d) :: m.filter (fun x => x.1 ≠ e.1)
  match (m.find? (fun x => x.1 = e.1)).map (fun x => x.2) with
  | some (Data.heap size off) =>
    match a.release off size with
    | none => (a, none)
    | some a' => (a', some m')
  | _ => (a, some m')

/-- heap regions of tuple data -/
def dataRegs : Data → List (Nat × Nat)
  | .inline _ => []
  | .heap size off => [(off, size)]

/-- libblobd-kv/src/object.rs:231-266 `load_tuples_from_device`: the regions it marks, in order -/
def loadRegs (c : StoreCfg) (pages : Nat → List Byte) : Option (List (Nat × Nat)) :=
  (List.range c.bundleCount).foldlM (fun acc i =>
    match bundleDeserialise (pages i) with
    | none => none
    | some ts => some (acc ++ ts.flatMap (fun t => dataRegs t.2))) []

/-- the log part a restart replays: everything logged and not recorded as committed -/
def Commit.replayed (cm : Option Commit) (cl : List Task) : List Task :=
  match cm with
  | some ⟨_, .headWritten⟩ => []
  | _ => cl

def isHeapEntry (e : Key × Option Data) : Bool :=
  match e.2 with
  | some (.heap _ _) => true
  | _ => false

/-- libblobd-kv/src/lib.rs:183-245 `load_and_start`: a fresh allocator, marked from the bundle pages; the overlay from the
log. `none`: a panic. The log entries' heap space is *not* marked. -/
def load (c : StoreCfg) (s : St) : Option St :=
  match KvAlloc.new c.heap.base c.heap.heap c.heap.pages, loadRegs c s.pages,
      replay c.log s.log.data s.log.head s.log.tail with
  | some a0, some regs, some es =>
    match Spec.kvMarkAll a0 regs with
    | none => none
    | some a => some { s with
        alloc := a
        log := ⟨s.log.data, s.log.head, s.log.tail, s.log.tail, []⟩
        preps := [], ready := [], queue := [], pending := [], inserting := []
        gens := fun g => if g = 0 then Overlay.ofEntries es else []
        cur := 0, com := none, commit := none
        applied := s.applied ++ s.inserting
        base := match s.commit with
          | some ⟨_, .headWritten⟩ => s.base ++ s.cl
          | _ => s.base
        cl := []
        ul := Commit.replayed s.commit s.cl ++ s.ul ++ s.inserting
        faults := (if es.any isHeapEntry then [.heapTupleInReplayedLog] else []) ++ s.faults }
  | _, _, _ => none

/-- the formatted store (libblobd-kv/src/lib.rs:169-181, libblobd-kv/src/object.rs:212-229, libblobd-kv/src/log_buffer.rs:152-156) -/
def fresh (c : StoreCfg) (heap logData : Mem) : Option St :=
  match KvAlloc.new c.heap.base c.heap.heap c.heap.pages with
  | none => none
  | some a => some {
      heap := heap, alloc := a
      pages := fun _ => List.replicate (2 ^ c.heap.pages.spage) 0
      log := LogSt.fresh logData
      preps := [], ready := [], queue := [], pending := [], inserting := []
      gens := fun _ => [], cur := 0, com := none, commit := none
      issued := [], applied := [], base := [], cl := [], ul := [], faults := [] }

/-- byte `x` is written by `w` -/
def Covers (w : Nat × List Byte) (x : Nat) : Prop := w.1 ≤ x ∧ x < w.1 + w.2.length

/-- a heap byte that may change because a heap write is in flight -/
def HeapTarget (s : St) (x : Nat) : Prop :=
  (∃ p ∈ s.preps, Covers p.write x) ∨
  (∃ upTo ws gs, s.commit = some ⟨upTo, .moving ws gs⟩ ∧ ∃ w ∈ ws, Covers w x)

/-- The store's steps. -/
inductive Step (c : StoreCfg) : St → St → Prop
  /-- `write_object` with a value kept inline in the log (libblobd-kv/src/op/write_object.rs:53-59) -/
  | writeInline {s} (raw data : List Byte) :
      data.length ≤ objectSizeMax → data.length ≤ c.inlineThreshold →
      Step c s { s with
        ready := s.ready ++ [⟨Key.fromRaw c.H raw, some (.inline data), some data⟩]
        issued := s.issued ++ [⟨Key.fromRaw c.H raw, some (.inline data), some data⟩] }
  /-- `write_object` with a heap value: allocation (libblobd-kv/src/op/write_object.rs:60-66) -/
  | writeHeap {s} (raw data : List Byte) (junk : Nat → Byte) {off sizeOnDev a'} :
      data.length ≤ objectSizeMax → c.inlineThreshold < data.length →
      allocateOnHeap s.alloc data.length = (.ok (off, sizeOnDev), a') →
      Step c s { s with
        alloc := a'
        preps := s.preps ++ [⟨⟨Key.fromRaw c.H raw, some (.heap data.length off), some data⟩,
          (off, paddedBuf junk data sizeOnDev)⟩]
        issued := s.issued ++ [⟨Key.fromRaw c.H raw, some (.heap data.length off), some data⟩] }
  /-- heap writes in flight reach the device partially, in any order -/
  | heapDevice {s} (heap' : Mem) : (∀ x, heap' x ≠ s.heap x → HeapTarget s x) →
      Step c s { s with heap := heap' }
  /-- the heap write of a `write_object` completes (libblobd-kv/src/op/write_object.rs:69) -/
  | heapWritten {s pre p post} : s.preps = pre ++ p :: post →
      Step c s { s with
        heap := s.heap.write p.write.1 p.write.2
        preps := pre ++ post, ready := s.ready ++ [p.task] }
  /-- the task is sent to the log (libblobd-kv/src/op/write_object.rs:82, libblobd-kv/src/log_buffer.rs:768-776) -/
  | send {s pre t post} : s.ready = pre ++ t :: post →
      Step c s { s with ready := pre ++ post, queue := s.queue ++ [t] }
  /-- `delete_object` (libblobd-kv/src/op/delete_object.rs:16, libblobd-kv/src/log_buffer.rs:778-786) -/
  | delete {s} (raw : List Byte) :
      Step c s { s with
        queue := s.queue ++ [⟨Key.fromRaw c.H raw, none, none⟩]
        issued := s.issued ++ [⟨Key.fromRaw c.H raw, none, none⟩] }
  /-- the flusher receives a task (libblobd-kv/src/log_buffer.rs:603-617) -/
  | recv {s t q} : s.queue = t :: q →
      Step c s { s with queue := q, pending := s.pending ++ [t] }
  /-- the flusher sends off its pending tasks (libblobd-kv/src/log_buffer.rs:623-719) -/
  | flush {s log' f} (j1 j2 : Nat → Byte) : s.pending ≠ [] →
      planFlush c.log s.log j1 j2 s.pending = some (log', f) →
      Step c s { s with
        log := log', pending := []
        faults := (if ((encodeTasks s.pending).map (fun b => (padFlush c.log j1 b).length)).getD 0
          ≤ c.log.bufSize then [] else [.oversizedFlush]) ++ s.faults }
  /-- log writes in flight reach the device partially, in any order -/
  | logDevice {s} (data' : Mem) :
      (∀ x, data' x ≠ s.log.data x → ∃ f ∈ s.log.inflight, f.done = false ∧ ∃ w ∈ f.writes, Covers w x) →
      Step c s { s with log := { s.log with data := data' } }
  /-- the writes of one flush complete (libblobd-kv/src/log_buffer.rs:700-717) -/
  | logWritten {s i f} : s.log.inflight[i]? = some f → f.done = false →
      Step c s { s with log := finishFlush s.log i }
  /-- the completer records a new tail (libblobd-kv/src/log_buffer.rs:522-544) -/
  | complete {s log' ts} (n : Nat) : s.inserting = [] →
      completeFlushes s.log n = some (log', ts) →
      Step c s { s with log := log', inserting := ts }
  /-- the completer applies one task to the overlay and acknowledges it (libblobd-kv/src/log_buffer.rs:548-573) -/
  | apply {s t r} : s.inserting = t :: r →
      Step c s { s with
        inserting := r
        gens := fun g => if g = s.cur then (s.gens g).insert t.key t.op else s.gens g
        applied := s.applied ++ [t], ul := s.ul ++ [t] }
  /-- the completer starts a commit (libblobd-kv/src/log_buffer.rs:322-339) -/
  | commitStart {s} : s.inserting = [] → s.commit = none →
      s.log.tail - s.log.head ≥ c.commitThreshold →
      Step c s { s with
        com := some s.cur, cur := s.cur + 1
        commit := some ⟨s.log.tail, .started⟩
        cl := s.ul, ul := [] }
  /-- the commit groups its entries and allocates heap space (libblobd-kv/src/log_buffer.rs:362-411) -/
  | group {s g upTo es a' es' ws} (junk : Nat → Byte) : s.com = some g →
      s.commit = some ⟨upTo, .started⟩ → es.Perm (s.gens g) →
      moveAll junk s.alloc es = (a', some (es', ws)) →
      Step c s { s with alloc := a', commit := some ⟨upTo, .moving ws (groupsOf c es')⟩ }
  /-- the commit runs out of heap space while grouping: its task panics (libblobd-kv/src/log_buffer.rs:382-384) -/
  | groupPanic {s g upTo es a'} (junk : Nat → Byte) : s.com = some g →
      s.commit = some ⟨upTo, .started⟩ → es.Perm (s.gens g) →
      moveAll junk s.alloc es = (a', none) →
      Step c s { s with alloc := a', commit := some ⟨upTo, .dead⟩ }
  /-- one heap write of the commit completes (libblobd-kv/src/log_buffer.rs:429-436) -/
  | moved {s upTo pre w post gs} : s.commit = some ⟨upTo, .moving (pre ++ w :: post) gs⟩ →
      Step c s { s with
        heap := s.heap.write w.1 w.2
        commit := some ⟨upTo, .moving (pre ++ post) gs⟩ }
  /-- all heap writes done (libblobd-kv/src/log_buffer.rs:428-447) -/
  | movedAll {s upTo gs} : s.commit = some ⟨upTo, .moving [] gs⟩ →
      Step c s { s with commit := some ⟨upTo, .updating gs [] []⟩ }
  /-- one bundle is read (libblobd-kv/src/log_buffer.rs:456-464) -/
  | bundleRead {s upTo pre i es post work comp ts} :
      s.commit = some ⟨upTo, .updating (pre ++ (i, es) :: post) work comp⟩ →
      bundleDeserialise (s.pages i) = some ts →
      Step c s { s with
        commit := some ⟨upTo, .updating (pre ++ post) (⟨i, collectMap ts, es⟩ :: work) comp⟩ }
  /-- one entry is applied to a bundle in memory (libblobd-kv/src/log_buffer.rs:465-485) -/
  | bundleEntry {s upTo todo pre i m e es post comp a' m'} :
      s.commit = some ⟨upTo, .updating todo (pre ++ ⟨i, m, e :: es⟩ :: post) comp⟩ →
      applyEntry s.alloc m e = (a', some m') →
      Step c s { s with
        alloc := a'
        commit := some ⟨upTo, .updating todo (pre ++ ⟨i, m', es⟩ :: post) comp⟩ }
  /-- the bundle is serialised, in the map's iteration order (libblobd-kv/src/log_buffer.rs:488) -/
  | bundleSerialise {s upTo todo pre i m post comp order page} (junk : Nat → Byte) :
      s.commit = some ⟨upTo, .updating todo (pre ++ ⟨i, m, []⟩ :: post) comp⟩ →
      order.Perm m → serialiseBundle (2 ^ c.heap.pages.spage) junk order = some page →
      Step c s { s with commit := some ⟨upTo, .updating todo (pre ++ post) ((i, page) :: comp)⟩ }
  /-- a bundle update task panics — unreadable page — and the panic is swallowed (libblobd-kv/src/log_buffer.rs:502) -/
  | readPanic {s upTo pre g post work comp} :
      s.commit = some ⟨upTo, .updating (pre ++ g :: post) work comp⟩ →
      bundleDeserialise (s.pages g.1) = none →
      Step c s { s with
        commit := some ⟨upTo, .updating (pre ++ post) work comp⟩
        faults := .bundleTaskPanicked :: s.faults }
  /-- a bundle update task panics — a release fails — and the panic is swallowed (libblobd-kv/src/log_buffer.rs:502) -/
  | entryPanic {s upTo todo pre i m e es post comp a'} :
      s.commit = some ⟨upTo, .updating todo (pre ++ ⟨i, m, e :: es⟩ :: post) comp⟩ →
      applyEntry s.alloc m e = (a', none) →
      Step c s { s with
        alloc := a'
        commit := some ⟨upTo, .updating todo (pre ++ post) comp⟩
        faults := .bundleTaskPanicked :: s.faults }
  /-- a bundle update task panics — the bundle overflows its page — and the panic is swallowed
  (libblobd-kv/src/log_buffer.rs:502) -/
  | serialisePanic {s upTo todo pre i m post comp order} (junk : Nat → Byte) :
      s.commit = some ⟨upTo, .updating todo (pre ++ ⟨i, m, []⟩ :: post) comp⟩ →
      order.Perm m → serialiseBundle (2 ^ c.heap.pages.spage) junk order = none →
      Step c s { s with
        commit := some ⟨upTo, .updating todo (pre ++ post) comp⟩
        faults := .bundleTaskPanicked :: s.faults }
  /-- the new bundle page reaches the device, atomically (libblobd-kv/src/log_buffer.rs:490-492) -/
  | bundleWritten {s upTo todo work pre i page post} :
      s.commit = some ⟨upTo, .updating todo work (pre ++ (i, page) :: post)⟩ →
      Step c s { s with
        pages := fun j => if j = i then page else s.pages j
        commit := some ⟨upTo, .updating todo work (pre ++ post)⟩ }
  /-- the commit records the new head (libblobd-kv/src/log_buffer.rs:510-514) -/
  | headWrite {s upTo} : s.commit = some ⟨upTo, .updating [] [] []⟩ →
      Step c s { s with
        log := advanceHead s.log upTo
        commit := some ⟨upTo, .headWritten⟩ }
  /-- the commit drops its overlay (libblobd-kv/src/log_buffer.rs:515-516) -/
  | commitEnd {s upTo} : s.commit = some ⟨upTo, .headWritten⟩ →
      Step c s { s with com := none, commit := none, base := s.base ++ s.cl, cl := [] }

end Kv
end Blobd
