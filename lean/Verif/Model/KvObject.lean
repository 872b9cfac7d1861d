import Verif.Model.Bytes
import Verif.Model.Util
/-!
# KV store: tuple keys, tuple data and bundles

`libblobd-kv/src/object.rs` and `ByteConsumer` of `libblobd-kv/src/util.rs:11-46`.

A `ByteConsumer` is the list of bytes that are left; consuming past its end is a slice panic (`none`).
`Option` is used for panics. blake3 is a parameter `H : List Byte → List Byte`.
-/
namespace Blobd
namespace Kv

/-- libblobd-kv/src/object.rs:58-62 `ObjectTupleKey` -/
inductive Key where
  | hash (h : List Byte)
  | literal (l : List Byte)
  deriving DecidableEq, Repr

/-- libblobd-kv/src/object.rs:110-115 `ObjectTupleData` -/
inductive Data where
  | inline (d : List Byte)
  | heap (size devOffset : Nat)
  deriving DecidableEq, Repr

/-- libblobd-kv/src/util.rs:21-25 `ByteConsumer::consume`: the next `n` bytes, or a slice panic -/
def consume (n : Nat) (raw : List Byte) : Option (List Byte × List Byte) :=
  if n ≤ raw.length then some (raw.take n, raw.drop n) else none

/-- libblobd-kv/src/object.rs:73-80 `ObjectTupleKey::from_raw` -/
def Key.fromRaw (H : List Byte → List Byte) (raw : List Byte) : Key :=
  if raw.length ≤ 32 then .literal raw else .hash (H raw)

/-- libblobd-kv/src/object.rs:65-71 `ObjectTupleKey::from_raw_and_hash` -/
def Key.fromRawAndHash (raw h : List Byte) : Key :=
  if raw.length ≤ 32 then .literal raw else .hash h

/-- libblobd-kv/src/object.rs:82-87 `ObjectTupleKey::hash` -/
def Key.hash32 (H : List Byte → List Byte) : Key → List Byte
  | .hash h => h
  | .literal l => H l

/-- libblobd-kv/src/object.rs:89-100 `ObjectTupleKey::serialise`. `u8!(l.len())` panics above 255; the hash is a
`[u8; 32]`. -/
def Key.serialise : Key → Option (List Byte)
  | .hash h => some (255 :: h)
  | .literal l => if l.length < 256 then some (UInt8.ofNat l.length :: l) else none

/-- libblobd-kv/src/object.rs:102-107 `ObjectTupleKey::deserialise` -/
def Key.deserialise (raw : List Byte) : Option (Key × List Byte) :=
  match consume 1 raw with
  | some ([b], rest) =>
    if b = 255 then
      match consume 32 rest with
      | some (h, rest') => some (.hash h, rest')
      | none => none
    else
      match consume b.toNat rest with
      | some (l, rest') => some (.literal l, rest')
      | none => none
  | _ => none

/-- libblobd-kv/src/object.rs:125-144 `ObjectTupleData::serialise`: `u32!(len)` panics above u32, the heap branch
asserts `dev_offset >> 9 < 1 << 39` and `size.checked_sub(1).unwrap()`; `create_u24_le` keeps the low
24 bits (off64 contract). -/
def Data.serialise : Data → Option (List Byte)
  | .inline i =>
    if i.length < 127 then some (UInt8.ofNat (i.length ||| 0b10000000) :: i)
    else if i.length < 2 ^ 32 then some (UInt8.ofNat (127 ||| 0b10000000) :: (leBytes 4 i.length ++ i))
    else none
  | .heap size devOffset =>
    if devOffset >>> 9 < 1 <<< 39 then
      if size ≥ 1 then some (beBytes 5 (devOffset >>> 9) ++ leBytes 3 (size - 1)) else none
    else none

/-- libblobd-kv/src/object.rs:146-160 `ObjectTupleData::deserialise` -/
def Data.deserialise (raw : List Byte) : Option (Data × List Byte) :=
  match raw with
  | [] => none
  | b :: rest =>
    if b &&& 0b10000000 ≠ 0 then
      let ilen := (b &&& 0x7f).toNat
      if ilen < 127 then
        match consume ilen rest with
        | some (d, rest') => some (.inline d, rest')
        | none => none
      else
        match consume 4 rest with
        | some (l4, rest1) =>
          match consume (leVal l4) rest1 with
          | some (d, rest') => some (.inline d, rest')
          | none => none
        | none => none
    else
      match consume 5 raw with
      | some (o5, rest1) =>
        match consume 3 rest1 with
        | some (s3, rest') => some (.heap (leVal s3 + 1) (beVal o5 <<< 9), rest')
        | none => none
      | none => none

/-- libblobd-kv/src/object.rs:163-166 `get_bundle_index_for_key` -/
def bundleIndex (h : List Byte) (bundleCount : Nat) : Nat := beVal ((h.drop 24).take 8) % bundleCount

/-- libblobd-kv/src/object.rs:177-189 `BundleDeserialiser` collected: stop at the end or at a zero byte; `none` is a
panic. `fuel` bounds the number of tuples; every tuple takes at least one byte. -/
def bundleDeserialiseAux : Nat → List Byte → Option (List (Key × Data))
  | 0, _ => some []
  | fuel + 1, raw =>
    match raw with
    | [] => some []
    | b :: _ =>
      if b = 0 then some []
      else
        match Key.deserialise raw with
        | none => none
        | some (k, raw1) =>
          match Data.deserialise raw1 with
          | none => none
          | some (d, raw2) =>
            match bundleDeserialiseAux fuel raw2 with
            | none => none
            | some rest => some ((k, d) :: rest)

/-- libblobd-kv/src/object.rs:169-189, all tuples of a bundle page -/
def bundleDeserialise (raw : List Byte) : Option (List (Key × Data)) :=
  bundleDeserialiseAux (raw.length + 1) raw

/-- the bytes of the tuples, one after another (libblobd-kv/src/object.rs:196-199) -/
def serialiseTuples : List (Key × Data) → Option (List Byte)
  | [] => some []
  | (k, d) :: rest =>
    match k.serialise, d.serialise, serialiseTuples rest with
    | some a, some b, some c => some (a ++ b ++ c)
    | _, _, _ => none

/-- libblobd-kv/src/object.rs:191-210 `serialise_bundle`. The buffer has capacity `spage_size` and writing more is a
panic (the source calls bundle overflow fatal, libblobd-kv/src/object.rs:56). The bytes after the zero marker are
whatever the recycled buffer held: `junk`. -/
def serialiseBundle (spageSize : Nat) (junk : Nat → Byte) (tuples : List (Key × Data)) :
    Option (List Byte) :=
  match serialiseTuples tuples with
  | none => none
  | some buf =>
    if buf.length > spageSize then none
    else
      let buf := if buf.length < spageSize then buf ++ [0] else buf
      some (buf ++ (List.range (spageSize - buf.length)).map (fun i => junk (buf.length + i)))

end Kv
end Blobd
