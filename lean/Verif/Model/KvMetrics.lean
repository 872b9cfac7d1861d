import Verif.Model.KvStore
set_option autoImplicit false
/-!
# KV store: the reported metrics

libblobd-kv/src/metrics.rs. Values are integers here; the API reports them modulo 2^64 (`AtomicU64` wraps). A counter that a
thread changes right after (or right before) an effect, without waiting in between, changes in the step of that effect.
`allocated_bytes` belongs to the allocator; the counters of reads, padding, flushes and times are not modelled.
-/
namespace Blobd
namespace Kv

/-- libblobd-kv/src/metrics.rs:7-29 `Inner`, the counters of calls and of objects -/
structure Metrics where
  writeOps : Int
  deleteOps : Int
  objects : Int
  heapBytes : Int
  deriving DecidableEq, Repr

/-- libblobd-kv/src/lib.rs:132 `BlobdMetrics::default()` -/
def Metrics.zero : Metrics := ⟨0, 0, 0, 0⟩

/-- the `size` field of a heap tuple (libblobd-kv/src/object.rs:251-256, libblobd-kv/src/log_buffer.rs:480-485) -/
def heapLen : Data → Nat
  | .inline _ => 0
  | .heap size _ => size

/-- the tuples of all bundles, as `load_tuples_from_device` meets them (libblobd-kv/src/object.rs:241-262) -/
def pageTuples (c : StoreCfg) (pages : Nat → List Byte) : List (Key × Data) :=
  (List.range c.bundleCount).flatMap (fun i => (bundleDeserialise (pages i)).getD [])

/-- libblobd-kv/src/object.rs:238-266: the counters after a start -/
def loadCount (c : StoreCfg) (pages : Nat → List Byte) : Metrics :=
  { Metrics.zero with
    objects := (pageTuples c pages).length
    heapBytes := ((pageTuples c pages).map (fun t => heapLen t.2)).sum }

/-- libblobd-kv/src/op/write_object.rs:39-42 `allocate_object_on_heap` -/
def Metrics.onHeap (m : Metrics) (size : Nat) : Metrics := { m with heapBytes := m.heapBytes + size }

/-- libblobd-kv/src/op/write_object.rs:75 -/
def Metrics.onWrite (m : Metrics) : Metrics := { m with writeOps := m.writeOps + 1 }

/-- libblobd-kv/src/op/delete_object.rs:17-21 -/
def Metrics.onDelete (m : Metrics) : Metrics := { m with deleteOps := m.deleteOps + 1 }

/-- libblobd-kv/src/log_buffer.rs:372-384: bytes a background commit moves to the heap for one entry -/
def movedLen : Key × Option Data → Nat
  | (_, some (.inline d)) => if d.length > 7 then d.length else 0
  | _ => 0

/-- libblobd-kv/src/log_buffer.rs:466-476: one more object for an upsert, one less for a tuple that was there -/
def Metrics.onEntry (m : Metrics) (old : Option Data) (new : Option Data) : Metrics :=
  { m with objects := m.objects + (if new.isSome then 1 else 0) - (if old.isSome then 1 else 0) }

/-- libblobd-kv/src/log_buffer.rs:478-485: the bytes of the tuple that was there, once its space is released -/
def Metrics.onReleased (m : Metrics) (old : Option Data) : Metrics :=
  { m with heapBytes := m.heapBytes - (old.map heapLen).getD 0 }

/-- the tuple of a key in the in-memory bundle (libblobd-kv/src/log_buffer.rs:467, 472) -/
def oldTuple (m : List (Key × Data)) (k : Key) : Option Data := (m.find? (fun x => x.1 = k)).map (fun x => x.2)

/-- entries not yet applied to bundles that have been read -/
def left : Option Commit → Nat
  | some ⟨_, .updating _ work _⟩ => (work.map (fun w => w.rest.length)).sum
  | _ => 0

/-- a commit that has not grouped its entries yet -/
def ungrouped : Option Commit → Bool
  | some ⟨_, .started⟩ => true
  | _ => false

/-- how a step changes the counters -/
inductive Count : St → St → Metrics → Metrics → Prop
  /-- a `write_object` allocates heap space (libblobd-kv/src/op/write_object.rs:60-66) -/
  | prepared {s s' : St} {m : Metrics} {p : Prep} {size off : Nat} : s'.preps = s.preps ++ [p] → p.task.op = some (.heap size off) →
      Count s s' m (m.onHeap size)
  /-- a `write_object` hands its tuple to the log: counted before that is written (libblobd-kv/src/op/write_object.rs:75-82) -/
  | sent {s s' : St} {m : Metrics} {pre post : List Task} {t : Task} : s.ready = pre ++ t :: post → s'.ready = pre ++ post →
      s'.queue = s.queue ++ [t] → Count s s' m m.onWrite
  /-- a `delete_object` is acknowledged (libblobd-kv/src/op/delete_object.rs:16-21) -/
  | deleted {s s' : St} {m : Metrics} {t : Task} : s'.applied = s.applied ++ [t] → t.op = none → Count s s' m m.onDelete
  /-- a background commit groups its entries (libblobd-kv/src/log_buffer.rs:372-384) -/
  | grouped {s s' : St} {m : Metrics} {g upTo : Nat} {ws : List (Nat × List Byte)} {gs : List Group} : s.com = some g →
      s.commit = some ⟨upTo, .started⟩ → s'.commit = some ⟨upTo, .moving ws gs⟩ →
      Count s s' m (m.onHeap ((s.gens g).map movedLen).sum)
  /-- a background commit panics while grouping, some entries having got their space (libblobd-kv/src/log_buffer.rs:382-384) -/
  | groupPanicked {s s' : St} {m : Metrics} {g upTo : Nat} {done rest : List (Key × Option Data)} : s.com = some g →
      s.commit = some ⟨upTo, .started⟩ → s'.commit = some ⟨upTo, .dead⟩ → (done ++ rest).Perm (s.gens g) →
      Count s s' m (m.onHeap (done.map movedLen).sum)
  /-- an entry is applied to a bundle in memory (libblobd-kv/src/log_buffer.rs:465-486) -/
  | entered {s s' : St} {m : Metrics} {upTo i : Nat} {todo : List Group} {pre post : List Work} {mp mp' : List (Key × Data)}
      {e : Key × Option Data} {es : List (Key × Option Data)} {comp : List (Nat × List Byte)} :
      s.commit = some ⟨upTo, .updating todo (pre ++ ⟨i, mp, e :: es⟩ :: post) comp⟩ →
      s'.commit = some ⟨upTo, .updating todo (pre ++ ⟨i, mp', es⟩ :: post) comp⟩ →
      Count s s' m ((m.onEntry (oldTuple mp e.1) e.2).onReleased (oldTuple mp e.1))
  /-- the same, but the release of the old tuple's space panics (libblobd-kv/src/log_buffer.rs:476-479) -/
  | entryPanicked {s s' : St} {m : Metrics} {upTo i : Nat} {todo : List Group} {pre post : List Work} {mp : List (Key × Data)}
      {e : Key × Option Data} {es : List (Key × Option Data)} {comp : List (Nat × List Byte)} :
      s.commit = some ⟨upTo, .updating todo (pre ++ ⟨i, mp, e :: es⟩ :: post) comp⟩ →
      s'.commit = some ⟨upTo, .updating todo (pre ++ post) comp⟩ →
      Count s s' m (m.onEntry (oldTuple mp e.1) e.2)
  /-- anything else -/
  | quiet {s s' : St} {m : Metrics} : s'.preps.length ≤ s.preps.length → s.ready.length ≤ s'.ready.length →
      (∀ t, s'.applied = s.applied ++ [t] → t.op ≠ none) → (ungrouped s.commit = true → ungrouped s'.commit = true) →
      left s.commit ≤ left s'.commit → Count s s' m m

/-- all executions, with the counters they show and the number of calls acknowledged before the store was last opened -/
inductive MReach (c : StoreCfg) : St → Nat → Metrics → Prop
  | fresh {heap logData : Mem} {s : St} : fresh c heap logData = some s → MReach c s 0 .zero
  | step {s s' : St} {n : Nat} {m m' : Metrics} : MReach c s n m → Step c s s' → Count s s' m m' → MReach c s' n m'
  | restart {s s' : St} {n : Nat} {m : Metrics} : MReach c s n m → load c s = some s' →
      MReach c s' s'.applied.length (loadCount c s'.pages)

end Kv
end Blobd
