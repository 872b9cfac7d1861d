import Verif.Model.DirectStore
set_option autoImplicit false
/-!
# Direct store: the reported metrics

libblobd-direct/src/metrics.rs: counters shared by all partitions; every update is an atomic addition or subtraction, so the
reported value is the sum of what the partitions contribute, and this file follows the contribution of one
partition. Values are integers here; the API reports them modulo 2^64 (`AtomicU64` wraps).

A call changes its counters after its last effect and right before it answers; that is one step here
(`Step`'s answering step), so between the effect and the answer another call may see the old value, which the model shows
as the step not having happened yet. `allocated_bytes` belongs to the allocator (Model/Buddy).
-/
namespace Blobd
namespace Direct

/-- libblobd-direct/src/metrics.rs:7-31 `Inner`, without the counters of reads, writes and allocation -/
structure Metrics where
  createOps : Int
  commitOps : Int
  deleteOps : Int
  inspectOps : Int
  metaBytes : Int
  dataBytes : Int
  incomplete : Int
  committed : Int
  deriving DecidableEq, Repr

/-- libblobd-direct/src/lib.rs:130 `BlobdMetrics::default()` -/
def Metrics.zero : Metrics := ⟨0, 0, 0, 0, 0, 0, 0, 0⟩

/-- `metadata_size` of an object: the length of its serialised metadata (libblobd-direct/src/op/create_object.rs:71, 99). A
restart takes it from the deserialiser's position (libblobd-direct/src/objects.rs:124), the same number, as what is decoded is the
whole of what was encoded (C24). -/
def Obj.metaSize (o : Obj) : Nat := o.m.enc.length

/-- what an `AtomicU64` shows for a counter -/
def shown (x : Int) : Nat := (x % 2 ^ 64).toNat

/-- libblobd-direct/src/op/create_object.rs:104-123 -/
def Metrics.onCreated (m : Metrics) (o : Obj) : Metrics :=
  { m with
    createOps := m.createOps + 1
    incomplete := m.incomplete + 1
    metaBytes := m.metaBytes + o.metaSize
    dataBytes := m.dataBytes + o.m.size }

/-- libblobd-direct/src/op/delete_object.rs:28-33 (`reap_object`) -/
def Metrics.onReaped (m : Metrics) (o : Obj) : Metrics :=
  { m with
    metaBytes := m.metaBytes - o.metaSize
    dataBytes := m.dataBytes - o.m.size }

/-- libblobd-direct/src/op/commit_object.rs:72-89; `added` is `new_object_id.is_some() && to_delete.is_none()` -/
def Metrics.onCommitted (m : Metrics) (added : Bool) : Metrics :=
  { m with
    commitOps := m.commitOps + 1
    incomplete := m.incomplete - 1
    committed := if added then m.committed + 1 else m.committed }

/-- libblobd-direct/src/op/delete_object.rs:58-59 -/
def Metrics.onDeleted (m : Metrics) : Metrics :=
  { m with
    deleteOps := m.deleteOps + 1
    committed := m.committed - 1 }

/-- libblobd-direct/src/op/inspect_object.rs:33 -/
def Metrics.onInspected (m : Metrics) : Metrics := { m with inspectOps := m.inspectOps + 1 }

/-- what a call at this point adds to the counters when it ends there -/
def PC.count (m : Metrics) : PC → Metrics
  | .createTuple o _ => m.onCreated o
  | .commitTuple _ none _ => m.onCommitted true
  | .reapTuple o _ _ (.replaced _) => (m.onReaped o).onCommitted false
  | .reapTuple o _ _ .kept => (m.onReaped o).onCommitted false
  | .reapTuple o _ _ .deleted => (m.onReaped o).onDeleted
  | _ => m

/-- the answer is that of a successful `inspect_object` -/
def Resp.inspects : Resp → Bool
  | .inspected _ _ => true
  | _ => false

/-- how the counters change with a step: a call that ends counts; a successful inspect counts; nothing else does. -/
inductive Count : DSt → DSt → Metrics → Metrics → Prop
  /-- a call answers and is gone -/
  | ended {s s' : DSt} {pre post : List Thread} {th : Thread} {m : Metrics} : s.threads = pre ++ th :: post →
      s'.threads = pre ++ post → Count s s' m (th.pc.count m)
  /-- libblobd-direct/src/op/inspect_object.rs:25-38: an inspect is one step, so it never shows as a thread -/
  | inspected {s s' : DSt} {a : Ack} {m : Metrics} : s'.threads = s.threads → s'.acks = s.acks ++ [a] → a.resp.inspects = true →
      Count s s' m m.onInspected
  /-- no answer, or one that says there is no such object -/
  | quiet {s s' : DSt} {m : Metrics} : s.threads.length ≤ s'.threads.length →
      (s'.acks = s.acks ∨ ∃ a, s'.acks = s.acks ++ [a] ∧ a.resp = .notFound) → Count s s' m m

/-- libblobd-direct/src/objects.rs:146-180: does the loop keep this tuple's object (rather than `continue`)? -/
def loadKeeps (dev : Mem) (l : LoadSt) (t : Tuple) : Option Obj :=
  match Meta.dec (dev.read t.metaOff (2 ^ t.metaPow2)) with
  | none => none
  | some m =>
    match t.state, l.committed m.key with
    | .committed, some e => if e.id > t.id then none else some ⟨t.id, m⟩
    | _, _ => some ⟨t.id, m⟩

/-- libblobd-direct/src/objects.rs:172-179: the objects whose bytes the loop adds, in order -/
def loadCounted (c : SCfg) (dev : Mem) : LoadSt → List Tuple → List Obj
  | _, [] => []
  | l, t :: ts =>
    (loadKeeps dev l t).toList ++
      (match loadOne c dev l t with
      | none => []
      | some l' => loadCounted c dev l' ts)

/-- libblobd-direct/src/objects.rs:187-194 `len()` of a map: `n` is the number of entries -/
def HasLen {α : Type} (f : α → Option Obj) (n : Nat) : Prop :=
  ∃ ks : List α, ks.Nodup ∧ ks.length = n ∧ ∀ a, f a ≠ none ↔ a ∈ ks

/-- libblobd-direct/src/objects.rs:172-194 over a fresh `BlobdMetrics`: the counters after a start that read the tuples in `order`
with maps `s'` as the result -/
def LoadCount (c : SCfg) (s s' : DSt) (order : List Tuple) (m : Metrics) : Prop :=
  ∃ a0 ni nc, Buddy.new c.heap.pageNumBits c.heap.base c.heap.heap c.heap.pages c.heap.dir = some a0 ∧
    HasLen s'.incomplete ni ∧ HasLen s'.committed nc ∧
    m = { Metrics.zero with
      metaBytes := ((loadCounted c s.dev ⟨a0, fun _ => none, fun _ => none, false⟩ order).map (fun o => (o.metaSize : Int))).sum
      dataBytes := ((loadCounted c s.dev ⟨a0, fun _ => none, fun _ => none, false⟩ order).map (fun o => (o.m.size : Int))).sum
      incomplete := ni
      committed := nc }

/-- all executions, with the counters they show -/
inductive MReach (c : SCfg) : DSt → Metrics → Prop
  | fresh {dev : Mem} {s : DSt} : fresh c dev = some s → MReach c s .zero
  | step {s s' : DSt} {m m' : Metrics} : MReach c s m → Step c s s' → Count s s' m m' → MReach c s' m'
  | restart {s s' : DSt} {m m' : Metrics} (order : List Tuple) : MReach c s m → order.Perm (diskTuples c.n s.ts) →
      load c s order = some s' → LoadCount c s s' order m' → MReach c s' m'

end Direct
end Blobd
