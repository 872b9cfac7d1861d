import Verif.Model.Util
/-!
# Device regions and bounded stores

How each library divides its device, and the bounds checks of the store wrappers. Byte offsets are `Nat`.
A subtraction that would underflow is a failure here (`none`): it panics in a debug build; in a release
build the lite and direct subtractions wrap, which then yields a heap of almost 2^64 bytes.
-/
namespace Blobd
namespace Regions

/-- a range of bytes of the device: `[off, off + len)` -/
structure Region where
  off : Nat
  len : Nat
  deriving DecidableEq, Repr

/-- configuration of a lite store (`BlobdCfg`, libblobd-lite/src/lib.rs:86-98, the fields that matter here) -/
structure LiteCfg where
  bucketCountLog2 : Nat
  lpage : Nat
  deviceSize : Nat

/-- the regions a lite store uses -/
structure LiteRegions where
  buckets : Region
  journal : Region
  heap : Region
  deriving DecidableEq, Repr

/-- libblobd-lite/src/lib.rs:186-201 `BlobdLoader::new_with_device_and_journal`;
`BUCKETS_SIZE(n) = n * 5` (bucket.rs). `none`: a failed assertion or an underflow. -/
def liteRegions (c : LiteCfg) : Option LiteRegions :=
  if c.bucketCountLog2 ≥ 12 ∧ c.bucketCountLog2 ≤ 48 then
    let bucketCount := 1 <<< c.bucketCountLog2
    let bucketsDevOffset := 0
    let bucketsSize := bucketCount * 5
    let journalDevOffset := bucketsDevOffset + bucketsSize
    let minReservedSpace := journalDevOffset + 1024 * 1024 * 32
    let heapDevOffset := ceilPow2 minReservedSpace c.lpage
    let journalSize := heapDevOffset - journalDevOffset
    if heapDevOffset ≤ c.deviceSize then
      let heapSize := ceilPow2 (c.deviceSize - heapDevOffset) c.lpage
      some ⟨⟨bucketsDevOffset, bucketsSize⟩, ⟨journalDevOffset, journalSize⟩, ⟨heapDevOffset, heapSize⟩⟩
    else none
  else none

/-- configuration of a KV store (libblobd-kv/src/lib.rs:59-92) -/
structure KvCfg where
  spage : Nat
  deviceLen : Nat
  logBufferSize : Nat
  logCommitThreshold : Nat
  logInlineThreshold : Nat
  tuplesReserved : Nat

structure KvRegions where
  bundles : Region
  heap : Region
  logData : Region
  logState : Region
  deriving DecidableEq, Repr

/-- libblobd-kv/src/lib.rs:109-130 `BlobdLoader::new` (`LPAGE_SIZE_POW2 = 24`,
`SPAGE_SIZE_POW2_MIN = 9`, `OBJECT_TUPLE_DATA_LEN_INLINE_THRESHOLD = 7`). `none`: a panic. -/
def kvRegions (c : KvCfg) : Option KvRegions :=
  if c.spage ≥ 9 ∧ c.spage ≤ 24 then
    let devEndAligned := floorPow2 c.deviceLen c.spage
    if c.logBufferSize > 1024 * 1024 * 64 ∧ c.logCommitThreshold < c.logBufferSize ∧
        c.logInlineThreshold ≥ 7 then
      let tuplesAreaSize := ceilPow2 c.tuplesReserved 24
      let heapDevOffset := tuplesAreaSize
      if 1 <<< c.spage ≤ devEndAligned then
        let logStateDevOffset := devEndAligned - 1 <<< c.spage
        if c.logBufferSize ≤ logStateDevOffset then
          let logDataDevOffset := logStateDevOffset - c.logBufferSize
          if heapDevOffset ≤ logStateDevOffset then
            let heapSize := floorPow2 (logStateDevOffset - heapDevOffset) 24
            if heapSize > 1024 * 1024 * 64 then
              some ⟨⟨0, heapDevOffset⟩, ⟨heapDevOffset, heapSize⟩,
                ⟨logDataDevOffset, c.logBufferSize⟩, ⟨logStateDevOffset, 1 <<< c.spage⟩⟩
            else none
          else none
        else none
      else none
    else none
  else none

/-- the regions of one direct partition, relative to the partition -/
structure DirectRegions where
  tuples : Region
  heap : Region
  deriving DecidableEq, Repr

/-- libblobd-direct/src/partition/mod.rs:29-40 `PartitionLoader::new` -/
def directRegions (tuplesReserved lpage partitionLen : Nat) : Option DirectRegions :=
  let tuplesAreaSize := ceilPow2 tuplesReserved lpage
  let heapDevOffset := tuplesAreaSize
  let heapEnd := floorPow2 partitionLen lpage
  if heapDevOffset ≤ heapEnd then
    let heapSize := heapEnd - heapDevOffset
    if tuplesAreaSize + heapDevOffset ≤ heapEnd then
      some ⟨⟨0, heapDevOffset⟩, ⟨heapDevOffset, heapSize⟩⟩
    else none
  else none

/-! ## Store wrappers (libblobd-direct/src/backing_store/mod.rs:33-126) -/

/-- `PartitionStore { offset, len }` -/
structure PartitionStore where
  offset : Nat
  len : Nat
  deriving DecidableEq, Repr

namespace PartitionStore

/-- libblobd-direct/src/backing_store/mod.rs:57-81 `read_at` / `write_at`: the device range touched, or a panic -/
def access (p : PartitionStore) (offset len : Nat) : Option Region :=
  if offset + len ≤ p.len then some ⟨p.offset + offset, len⟩ else none

end PartitionStore

/-- `BoundedStore { partition_store, offset, len }` -/
structure BoundedStore where
  partition : PartitionStore
  offset : Nat
  len : Nat
  deriving DecidableEq, Repr

/-- libblobd-direct/src/backing_store/mod.rs:88-95 `PartitionStore::bounded` -/
def PartitionStore.bounded (p : PartitionStore) (offset len : Nat) : Option BoundedStore :=
  if offset + len ≤ p.len then some ⟨p, offset, len⟩ else none

/-- libblobd-direct/src/backing_store/mod.rs:111-125 `BoundedStore::read_at` / `write_at` -/
def BoundedStore.access (b : BoundedStore) (offset len : Nat) : Option Region :=
  if offset + len ≤ b.len then b.partition.access (b.offset + offset) len else none

/-- libblobd-kv/src/backing_store/mod.rs:24-67: the KV `BoundedStore` sits on the device itself -/
structure KvBoundedStore where
  offset : Nat
  len : Nat

/-- libblobd-kv/src/backing_store/mod.rs:43-66 -/
def KvBoundedStore.access (b : KvBoundedStore) (offset len : Nat) : Option Region :=
  if offset + len ≤ b.len then some ⟨b.offset + offset, len⟩ else none

/-! ## Routing (libblobd-direct/src/lib.rs:248-329, libblobd-kv/src/object.rs:58-85,163-166) -/

/-- libblobd-direct/src/lib.rs:248-252 `get_partition_index_by_object_key`; `none`: modulo by zero partitions -/
def partitionIndex (hash64 : List UInt8 → Nat) (n : Nat) (key : List UInt8) : Option Nat :=
  if n = 0 then none else some (hash64 key % n)

/-- libblobd-direct/src/incomplete_token.rs:9-13 -/
structure IncompleteToken where
  objectId : Nat
  partitionIdx : Nat

/-- A call that is routed to a partition (libblobd-direct/src/lib.rs:254-329). -/
inductive Call where
  | create (key : List UInt8)
  | commit (tok : IncompleteToken)
  | write (tok : IncompleteToken)
  | delete (key : List UInt8)
  | inspect (key : List UInt8)
  | read (key : List UInt8)

/-- libblobd-direct/src/lib.rs:254-329: which partition a call goes to; `none`: index out of bounds panic -/
def route (hash64 : List UInt8 → Nat) (n : Nat) : Call → Option Nat
  | .create k => partitionIndex hash64 n k
  | .commit t => if t.partitionIdx < n then some t.partitionIdx else none
  | .write t => if t.partitionIdx < n then some t.partitionIdx else none
  | .delete k => partitionIndex hash64 n k
  | .inspect k => partitionIndex hash64 n k
  | .read k => partitionIndex hash64 n k

/-- libblobd-direct/src/op/create_object.rs:133-138: the token returned by create in partition `p` carries
`ctx.partition_idx`, which libblobd-direct/src/partition/mod.rs:96 and libblobd-direct/src/lib.rs:133-166 set to the partition's index -/
def createToken (p id : Nat) : IncompleteToken := ⟨id, p⟩

end Regions
end Blobd
