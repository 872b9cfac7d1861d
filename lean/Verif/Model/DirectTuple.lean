import Verif.Model.Bytes
import Verif.Model.Layout
/-!
# Direct store: object tuples and the tuple area on the device

libblobd-direct/src/object/mod.rs:26-96 and libblobd-direct/src/tuples.rs:152-229.
-/
namespace Blobd
namespace Direct

/-- libblobd-direct/src/object/mod.rs:28-37, the two real states -/
inductive ObjState
  | incomplete | committed
  deriving DecidableEq, Repr

/-- `ObjectState as u8` for the real states -/
def ObjState.toByte : ObjState → Byte
  | .incomplete => 1
  | .committed => 2

/-- `_EndOfBundleTuples as u8` -/
def endOfBundle : Byte := 0

/-- `ObjectState::from_u8`: outer `none` is `None` (callers `unwrap`), inner `none` is `_EndOfBundleTuples` -/
def stateFromByte (b : Byte) : Option (Option ObjState) :=
  if b = 0 then some none else if b = 1 then some (some .incomplete) else if b = 2 then some (some .committed) else none

/-- libblobd-direct/src/object/mod.rs:70-76 -/
structure Tuple where
  state : ObjState
  id : Nat
  metaOff : Nat
  metaPow2 : Nat
  deriving DecidableEq, Repr

/-- libblobd-direct/src/object/mod.rs:64-68 -/
def offState : Nat := 0
def offId : Nat := offState + 1
def offMetaOff : Nat := offId + 16
def offMetaPow2 : Nat := offMetaOff + 6
def tupleLen : Nat := offMetaPow2 + 1

/-- overwrite part of a buffer (`out[i] = ..`, `write_uNN_le_at`) -/
def bufWrite (buf : List Byte) (off : Nat) (d : List Byte) : List Byte :=
  buf.take off ++ d ++ buf.drop (off + d.length)

/-- `raw[off..off+len]` -/
def bufSlice (buf : List Byte) (off len : Nat) : List Byte := (buf.drop off).take len

/-- libblobd-direct/src/object/mod.rs:79-85 -/
def Tuple.serialise (t : Tuple) (out : List Byte) : List Byte :=
  let out := bufWrite out offState [t.state.toByte]
  let out := bufWrite out offId (leBytes 16 t.id)
  let out := bufWrite out offMetaOff (leBytes 6 t.metaOff)
  bufWrite out offMetaPow2 [UInt8.ofNat t.metaPow2]

/-- libblobd-direct/src/object/mod.rs:87-95; `none` is a panic -/
def Tuple.deserialise (raw : List Byte) : Option Tuple :=
  match stateFromByte (raw.getD offState 0) with
  | some (some st) => some
      { state := st, id := leVal (bufSlice raw offId 16), metaOff := leVal (bufSlice raw offMetaOff 6),
        metaPow2 := (raw.getD offMetaPow2 0).toNat }
  | _ => none

/-- libblobd-direct/src/tuples.rs:50: `spage_size / OBJECT_TUPLE_SERIALISED_LEN` -/
def maxTuples (pages : Pages) : Nat := 2 ^ pages.spage / tupleLen

/-- libblobd-direct/src/tuples.rs:177-180: write the tuples one after another into the page, starting at slot `i` -/
def serialiseAll : Nat → List Tuple → List Byte → List Byte
  | _, [], page => page
  | i, t :: ts, page =>
    serialiseAll (i + 1) ts
      (bufWrite page (i * tupleLen) (t.serialise (bufSlice page (i * tupleLen) tupleLen)))

/-- libblobd-direct/src/tuples.rs:175-184: the page image of a bundle. `page` is the uninitialised buffer. -/
def encodeBundle (pages : Pages) (ts : List Tuple) (page : List Byte) : List Byte :=
  let page := serialiseAll 0 ts page
  if ts.length < maxTuples pages then bufWrite page (ts.length * tupleLen) [endOfBundle] else page

/-- libblobd-direct/src/tuples.rs:220-227: over the first `n` remaining 24-byte chunks from chunk `i`; `none` is a panic -/
def decodeLoop (raw : List Byte) : Nat → Nat → Option (List Tuple)
  | 0, _ => some []
  | n + 1, i =>
    let c := bufSlice raw (i * tupleLen) tupleLen
    match stateFromByte (c.getD 0 0) with
    | none => none
    | some none => some []
    | some (some _) =>
      match Tuple.deserialise c with
      | none => none
      | some t => (decodeLoop raw n (i + 1)).map (t :: ·)

/-- libblobd-direct/src/tuples.rs:216-228 for one bundle page (`chunks_exact`: whole chunks only) -/
def decodeBundle (raw : List Byte) : Option (List Tuple) := decodeLoop raw (raw.length / tupleLen) 0

/-- libblobd-direct/src/tuples.rs:185-187: where bundle `b` is written -/
def writeBundle (pages : Pages) (dev : Mem) (b : Nat) (page : List Byte) : Mem := dev.write (b * 2 ^ pages.spage) page

/-- libblobd-direct/src/tuples.rs:198-229: bundle `b` of the tuple area as loaded at startup -/
def loadBundle (pages : Pages) (dev : Mem) (b : Nat) : Option (List Tuple) :=
  decodeBundle (dev.read (b * 2 ^ pages.spage) (2 ^ pages.spage))

/-- libblobd-direct/src/objects.rs:48-57 `format_device_for_objects`: the whole tuple area is zeroed -/
def formatted (dev : Mem) (areaLen : Nat) : Mem := dev.write 0 (List.replicate areaLen 0)

end Direct
end Blobd
