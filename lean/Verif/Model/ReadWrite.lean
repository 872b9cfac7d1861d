import Verif.Spec.Mem
import Verif.Model.Layout
/-!
# Object data: reading and writing

libblobd-lite/src/op/read_object.rs:61-136, libblobd-lite/src/op/write_object.rs:70-188 and
libblobd-direct/src/op/read_object.rs:43-172, libblobd-direct/src/op/write_object.rs:51-173, from the point where the object
has been found. The object is given by its size and by two lookups: the device offset of its `i`-th
large page and of its `i`-th tail page (lite reads these from the record on the device, direct from
the in-memory object). Concurrent changes to the device during one call are not modelled here.
-/
namespace Blobd
namespace RW

/-- lite/direct op/mod.rs: error values -/
inductive OpError
  | dataStreamError | dataStreamLengthMismatch | inexactWriteLength | objectMetadataTooLarge
  | objectNotFound | rangeOutOfBounds | unalignedWrite
  deriving DecidableEq, Repr

/-- Result of running a loop with a step budget. -/
inductive Run (α : Type)
  | ret (v : α)
  | panic
  /-- the budget ran out before the loop ended -/
  | running
  deriving DecidableEq, Repr

structure Obj where
  size : Nat
  lpageOff : Nat → Nat
  tailOff : Nat → Nat

/-- libblobd-lite/src/op/read_object.rs:91-98, libblobd-direct/src/op/read_object.rs:118-125: skip tail pages that end at or before `start` -/
def tailScan (start : Nat) : Nat → Nat → List Nat → Nat
  | _, idx, [] => idx
  | accum, idx, e :: es =>
    let accum := accum + 1 <<< e
    if accum > start then idx else tailScan start accum (idx + 1) es

/-- libblobd-lite/src/op/read_object.rs:87-99, libblobd-direct/src/op/read_object.rs:113-126 -/
def startIdx (pages : Pages) (lay : ObjectLayout) (start : Nat) : Nat :=
  let idx := divPow2 start pages.lpage
  if idx ≥ lay.lpageCount then tailScan start (idx * 2 ^ pages.lpage) idx lay.tailPageSizes.toList else idx

/-- libblobd-lite/src/op/read_object.rs:102-112, libblobd-direct/src/op/read_object.rs:129-141: device offset and size exponent of page `idx`;
`none` is a panic (`u8!`, failed assert, `unwrap` of `None`, index out of bounds) -/
def pageAt (pages : Pages) (lay : ObjectLayout) (o : Obj) (idx : Nat) : Option (Nat × Nat) :=
  if idx < lay.lpageCount then some (o.lpageOff idx, pages.lpage)
  else
    let t := idx - lay.lpageCount
    if t < 256 ∧ t < lay.tailPageSizes.len then
      (lay.tailPageSizes.get t).map (fun e => (o.tailOff t, e))
    else none

/-- libblobd-lite/src/op/read_object.rs:100-127 -/
def readLoopLite (pages : Pages) (lay : ObjectLayout) (o : Obj) (dev : Mem) (stop : Nat) :
    Nat → Nat → Nat → Run (List (List Byte))
  | 0, _, _ => .running
  | fuel + 1, idx, next =>
    if next < stop then
      match pageAt pages lay o idx with
      | none => .panic
      | some (pageOff, e) =>
        let within := modPow2 next e
        let chunkLen := min (stop - next) (1 <<< e - within)
        let data := dev.read (pageOff + within) chunkLen
        match readLoopLite pages lay o dev stop fuel (idx + 1) (next + chunkLen) with
        | .ret cs => .ret (data :: cs)
        | r => r
    else .ret []

/-- libblobd-lite/src/op/read_object.rs:61-137 `op_read_object` after the object was found. `ret (ok chunks)` is the
complete output of the data stream. -/
def opReadLite (pages : Pages) (o : Obj) (dev : Mem) (start : Nat) (stop? : Option Nat) (fuel : Nat) :
    Run (Except OpError (List (List Byte))) :=
  let stop := stop?.getD o.size
  if start ≥ stop ∨ start ≥ o.size ∨ stop > o.size then .ret (.error .rangeOutOfBounds)
  else
    match calcObjectLayout pages o.size with
    | none => .panic
    | some lay =>
      match readLoopLite pages lay o dev stop fuel (startIdx pages lay start) start with
      | .ret cs => .ret (.ok cs)
      | .panic => .panic
      | .running => .running

/-- libblobd-direct/src/op/read_object.rs:43-58 `unaligned_read`: the device range actually read … -/
def unalignedRange (pages : Pages) (offset len : Nat) : Nat × Nat :=
  (floorPow2 offset pages.spage, max (ceilPow2 (offset + len) pages.spage) (2 ^ pages.spage))

/-- … and the bytes returned (`copy_within` then `truncate`). -/
def unalignedRead (pages : Pages) (dev : Mem) (offset len : Nat) : List Byte :=
  let r := unalignedRange pages offset len
  let buf := dev.read r.1 (r.2 - r.1)
  (buf.drop (offset - r.1)).take len

/-- libblobd-direct/src/op/read_object.rs:127-163. `object_is_still_valid` succeeds throughout (a committed object's
state never changes; see the model of direct deletes). -/
def readLoopDirect (pages : Pages) (lay : ObjectLayout) (o : Obj) (dev : Mem) (bufSize stop : Nat) :
    Nat → Nat → Nat → Run (List (List Byte))
  | 0, _, _ => .running
  | fuel + 1, idx, next =>
    if next < stop then
      match pageAt pages lay o idx with
      | none => .panic
      | some (pageOff, e) =>
        let within := modPow2 next e
        let rem := 1 <<< e - within
        let chunkLen := min (min bufSize (stop - next)) rem
        let data := unalignedRead pages dev (pageOff + within) chunkLen
        let idx := if chunkLen = rem then idx + 1 else idx
        match readLoopDirect pages lay o dev bufSize stop fuel idx (next + chunkLen) with
        | .ret cs => .ret (data :: cs)
        | r => r
    else .ret []

/-- libblobd-direct/src/op/read_object.rs:80-172 -/
def opReadDirect (pages : Pages) (o : Obj) (dev : Mem) (bufSize start : Nat) (stop? : Option Nat) (fuel : Nat) :
    Run (Except OpError (List (List Byte))) :=
  match calcObjectLayoutDirect pages o.size with
  | none => .panic
  | some lay =>
    let stop := stop?.getD o.size
    if start > stop ∨ start > o.size ∨ stop > o.size then .ret (.error .rangeOutOfBounds)
    else if start = stop ∨ start = o.size then .ret (.ok [])
    else
      match readLoopDirect pages lay o dev bufSize stop fuel (startIdx pages lay start) start with
      | .ret cs => .ret (.ok cs)
      | .panic => .panic
      | .running => .running

/-! ### Writing -/

/-- libblobd-lite/src/op/write_object.rs:74-95, libblobd-direct/src/op/write_object.rs:51-68: the checks, in order -/
def writeCheck (pages : Pages) (size offset len : Nat) : Option OpError :=
  if ¬ isMultipleOfPow2 offset pages.lpage then some .unalignedWrite
  else if len > 2 ^ pages.lpage then some .inexactWriteLength
  else if offset + len > size then some .rangeOutOfBounds
  else if offset + len ≠ min (offset + 2 ^ pages.lpage) size then some .inexactWriteLength
  else none

/-- change the last element (`offsets.last_mut().map(..)`) -/
def modifyLast {α : Type} (f : α → α) : List α → List α
  | [] => []
  | [a] => [f a]
  | a :: b :: l => a :: modifyLast f (b :: l)

/-- libblobd-lite/src/op/write_object.rs:102-131, libblobd-direct/src/op/write_object.rs:80-99: `(amount_to_write, page_dev_offset)` list -/
def writeTargets (pages : Pages) (lay : ObjectLayout) (o : Obj) (offset : Nat) : List (Nat × Nat) :=
  let idx := divPow2 offset pages.lpage
  if idx < lay.lpageCount then [(2 ^ pages.lpage, o.lpageOff idx)]
  else
    modifyLast (fun p => if o.size % p.1 ≠ 0 then (o.size % p.1, p.2) else p)
      (lay.tailPageSizes.toIter.map (fun ie => (1 <<< ie.2, o.tailOff ie.1)))

/-- State of the write loop (libblobd-lite/src/op/write_object.rs:133-178, libblobd-direct/src/op/write_object.rs:101-161). `stream` is what the request body
still yields: chunks or a stream error; when exhausted, `next()` keeps returning `None`. -/
structure WState where
  stream : List (Except Unit (List Byte))
  written : Nat := 0
  idx : Nat := 0
  buf : List Byte := []
  dev : Mem

inductive WStep
  | cont (s : WState)
  | done (r : Except OpError Unit) (dev : Mem)
  | panic

/-- libblobd-lite/src/op/write_object.rs:147-177, libblobd-direct/src/op/write_object.rs:116-160. `block` is the data handed to the device for one page: exactly
the bytes (lite) or the bytes followed by padding up to the small page size (direct, lines 137-141;
the padding is uninitialised memory). -/
def wproceed (block : List Byte → List Byte) (len : Nat) (targets : List (Nat × Nat)) (s : WState) : WStep :=
  if s.written + s.buf.length > len then .done (.error .dataStreamLengthMismatch) s.dev
  else
    match targets[s.idx]? with
    | none => .panic
    | some (amount, pageOff) =>
      if s.buf.length < amount then .cont s
      else .cont { s with
        dev := s.dev.write pageOff (block (s.buf.take amount)),
        buf := s.buf.drop amount, written := s.written + amount, idx := s.idx + 1 }

/-- one iteration of the loop, libblobd-lite/src/op/write_object.rs:136-178, libblobd-direct/src/op/write_object.rs:104-161 and the check after it -/
def wstep (block : List Byte → List Byte) (len : Nat) (targets : List (Nat × Nat)) (s : WState) : WStep :=
  match s.stream with
  | .error _ :: _ => .done (.error .dataStreamError) s.dev
  | .ok c :: rest => wproceed block len targets { s with stream := rest, buf := s.buf ++ c }
  | [] =>
    if s.buf.isEmpty then
      .done (if s.written ≠ len then .error .dataStreamLengthMismatch else .ok ()) s.dev
    else wproceed block len targets s

def wrun (block : List Byte → List Byte) (len : Nat) (targets : List (Nat × Nat)) :
    Nat → WState → Run (Except OpError Unit × Mem)
  | 0, _ => .running
  | fuel + 1, s =>
    match wstep block len targets s with
    | .cont s' => wrun block len targets fuel s'
    | .done r dev => .ret (r, dev)
    | .panic => .panic

/-- libblobd-lite/src/op/write_object.rs:70-188 after the object was found; also libblobd-direct/src/op/write_object.rs:51-173 with
`calcObjectLayoutDirect` and its `block` (its per-page state lock is not part of this function). -/
def opWrite (layout : Pages → Nat → Option ObjectLayout) (block : List Byte → List Byte) (pages : Pages) (o : Obj)
    (dev : Mem) (offset len : Nat) (stream : List (Except Unit (List Byte))) (fuel : Nat) :
    Run (Except OpError Unit × Mem) :=
  match writeCheck pages o.size offset len with
  | some e => .ret (.error e, dev)
  | none =>
    match layout pages o.size with
    | none => .panic
    | some lay => wrun block len (writeTargets pages lay o offset) fuel { stream := stream, dev := dev }

/-- lite: the bytes as they are -/
def blockLite : List Byte → List Byte := id

/-- libblobd-direct/src/op/write_object.rs:137-141: padded to a multiple of the small page size with whatever was in
the buffer (`junk`) -/
def blockDirect (pages : Pages) (junk : Nat → Byte) (d : List Byte) : List Byte :=
  d ++ (List.range (max (2 ^ pages.spage) (ceilPow2 d.length pages.spage) - d.length)).map junk

def opWriteLite := opWrite calcObjectLayout blockLite
def opWriteDirect (pages : Pages) (junk : Nat → Byte) :=
  opWrite calcObjectLayoutDirect (blockDirect pages junk) pages

end RW
end Blobd
