import Verif.Model.KvOps
set_option autoImplicit false
/-!
# What one read or write adds to the KV store's reported byte counters

libblobd-kv/src/metrics.rs:12-18; libblobd-kv/src/op/read_object.rs:28-104 and libblobd-kv/src/op/write_object.rs:26-84 once more, with the
counters. Counters are shared atomics that are only ever added to.
-/
namespace Blobd
namespace Kv

/-- libblobd-kv/src/metrics.rs:12-18: what one call has added -/
structure IoCount where
  readOps : Nat := 0
  readSent : Nat := 0
  readDiscarded : Nat := 0
  writeOps : Nat := 0
  writePersisted : Nat := 0
  writePadding : Nat := 0
  deriving DecidableEq, Repr

/-- libblobd-kv/src/op/read_object.rs:45-104 `op_read_object`: the answer, the device reads (offset, length) and the counters: `unaligned_read`
(lines 34-39) counts what it discards, lines 94-101 count a successful call. -/
def readObjectIo (spage : Nat) (dev : Mem) (tuple : Option Data) (start : Nat) (stop : Option Nat) :
    Outcome OpErr ReadOut × List (Nat × Nat) × IoCount :=
  let res := readObject spage dev tuple start stop
  let dr : List (Nat × Nat) × Nat :=
    match tuple with
    | some (.heap objectSize devOffset) =>
      let e := stop.getD objectSize
      if start > e ∨ start > objectSize ∨ e > objectSize then ([], 0)
      else if start = e ∨ start = objectSize then ([], 0)
      else
        let s := unalignedSpan spage (devOffset + start) (e - start)
        ([(s.1, s.2 - s.1)], (s.2 - s.1) - (e - start))
    | _ => ([], 0)
  match res with
  | .ok out => (res, dr.1, { readOps := 1, readSent := out.data.length, readDiscarded := dr.2 })
  | _ => (res, dr.1, { readDiscarded := dr.2 })

/-- libblobd-kv/src/op/write_object.rs:48-80: the tuple to log, the device writes and the counters. `allocate_object_on_heap` (lines 35-44)
counts the padding; lines 75-80 count the call once the data is on the heap (before the log has taken the tuple). -/
def writePrepareIo (threshold : Nat) (junk : Nat → Byte) (a : KvAlloc) (dev : Mem) (data : List Byte) :
    Outcome OpErr Data × KvAlloc × Mem × List (Nat × List Byte) × IoCount :=
  if data.length > objectSizeMax then (.err .objectTooLarge, a, dev, [], {})
  else if data.length ≤ threshold then (.ok (.inline data), a, dev, [], { writeOps := 1, writePersisted := data.length })
  else
    match allocateOnHeap a data.length with
    | (.err e, a') => (.err e, a', dev, [], {})
    | (.panic, a') => (.panic, a', dev, [], {})
    | (.ok (off, sizeOnDev), a') =>
      (.ok (.heap data.length off), a', dev.write off (paddedBuf junk data sizeOnDev), [(off, paddedBuf junk data sizeOnDev)],
        { writeOps := 1, writePersisted := data.length, writePadding := sizeOnDev - data.length })

end Kv
end Blobd
