import Verif.Model.KvObject
import Verif.Model.KvAlloc
/-!
# KV store operations around the log: `libblobd-kv/src/op/*.rs`
-/
namespace Blobd
namespace Kv

/-- libblobd-kv/src/op/mod.rs:13-18 `OpError` -/
inductive OpErr where
  | objectNotFound | objectTooLarge | outOfSpace | rangeOutOfBounds
  deriving DecidableEq, Repr

/-- libblobd-kv/src/op/read_object.rs:29-33: the device range `unaligned_read` reads, `(start, end)` -/
def unalignedSpan (spage offset len : Nat) : Nat × Nat :=
  (floorPow2 offset spage, max (ceilPow2 (offset + len) spage) (1 <<< spage))

/-- libblobd-kv/src/op/read_object.rs:28-43 `unaligned_read`: read whole small pages around the range and cut the range
out. `none`: `copy_within` or `truncate` out of bounds. -/
def unalignedRead (spage : Nat) (dev : Mem) (offset len : Nat) : Option (List Byte) :=
  let aStart := (unalignedSpan spage offset len).1
  let aEnd := (unalignedSpan spage offset len).2
  let buf := dev.read aStart (aEnd - aStart)
  if offset - aStart + len ≤ buf.length then
    some (((buf.drop (offset - aStart)).take len ++ buf.drop len).take len)
  else none

/-- libblobd-kv/src/op/read_object.rs:14-24 `OpReadObjectOutput` -/
structure ReadOut where
  data : List Byte
  stop : Nat
  objectSize : Nat
  deriving DecidableEq, Repr

/-- libblobd-kv/src/op/read_object.rs:45-104 `op_read_object`, given what `read_tuple` returned and the device contents
at the moment of the heap read. -/
def readObject (spage : Nat) (dev : Mem) (tuple : Option Data) (start : Nat) (stop : Option Nat) :
    Outcome OpErr ReadOut :=
  match tuple with
  | none => .err .objectNotFound
  | some (.inline i) =>
    let objectSize := i.length
    let stop := stop.getD objectSize
    if start > stop ∨ start > objectSize ∨ stop > objectSize then .err .rangeOutOfBounds
    else .ok ⟨(i.take stop).drop start, stop, objectSize⟩
  | some (.heap objectSize devOffset) =>
    let stop := stop.getD objectSize
    if start > stop ∨ start > objectSize ∨ stop > objectSize then .err .rangeOutOfBounds
    else if start = stop ∨ start = objectSize then .ok ⟨[], stop, objectSize⟩
    else
      match unalignedRead spage dev (devOffset + start) (stop - start) with
      | none => .panic
      | some d => .ok ⟨d, stop, objectSize⟩

/-- `OBJECT_SIZE_MAX`, libblobd-kv/src/object.rs:51-53 -/
def objectSizeMax : Nat := 1 <<< 24

/-- libblobd-kv/src/op/write_object.rs:26-46 `allocate_object_on_heap`: the offset and the padded size -/
def allocateOnHeap (a : KvAlloc) (size : Nat) : Outcome OpErr (Nat × Nat) × KvAlloc :=
  match a.allocate size with
  | (.err _, a') => (.err .outOfSpace, a')
  | (.panic, a') => (.panic, a')
  | (.ok off, a') => (.ok (off, max (1 <<< a.pages.spage) (ceilPow2 size a.pages.spage)), a')

/-- the buffer written to the heap: the data, then whatever the recycled buffer held
(libblobd-kv/src/op/write_object.rs:67-68, libblobd-kv/src/log_buffer.rs:385-386) -/
def paddedBuf (junk : Nat → Byte) (data : List Byte) (sizeOnDev : Nat) : List Byte :=
  data ++ (List.range (sizeOnDev - data.length)).map (fun i => junk (data.length + i))

/-- libblobd-kv/src/op/write_object.rs:48-76, everything before the log: size check, inline or heap, heap write. Returns
the tuple data to log. The heap write is awaited before the tuple is sent to the log (line 69). -/
def writePrepare (threshold : Nat) (junk : Nat → Byte) (a : KvAlloc) (dev : Mem) (data : List Byte) :
    Outcome OpErr Data × KvAlloc × Mem :=
  if data.length > objectSizeMax then (.err .objectTooLarge, a, dev)
  else if data.length ≤ threshold then (.ok (.inline data), a, dev)
  else
    match allocateOnHeap a data.length with
    | (.err e, a') => (.err e, a', dev)
    | (.panic, a') => (.panic, a', dev)
    | (.ok (off, sizeOnDev), a') =>
      (.ok (.heap data.length off), a', dev.write off (paddedBuf junk data sizeOnDev))

end Kv
end Blobd
