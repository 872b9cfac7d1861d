import Verif.Model.Bytes
import Verif.Model.Layout
/-!
# Lite object metadata ("inode") records and bucket pointers

libblobd-lite/src/object.rs, libblobd-lite/src/op/create_object.rs:71-93, libblobd-lite/src/bucket.rs:52-58, 123-133, 190-200,
libblobd-lite/src/lib.rs:244-251.
-/
namespace Blobd
namespace Lite

/-- libblobd-lite/src/object.rs:48-54, with `with_*` as plain fields -/
structure ObjectOffsets where
  keyLen : Nat := 0
  lpageCount : Nat := 0
  tailPageCount : Nat := 0
  assocDataLen : Nat := 0

namespace ObjectOffsets
variable (o : ObjectOffsets)
/-- libblobd-lite/src/object.rs:82-84 -/
def state : Nat := 0
/-- libblobd-lite/src/object.rs:86-88 -/
def metadataSizePow2 : Nat := state + 1
/-- libblobd-lite/src/object.rs:90-92 -/
def nextNode : Nat := metadataSizePow2 + 1
/-- libblobd-lite/src/object.rs:94-96 -/
def createdMs : Nat := nextNode + 6
/-- libblobd-lite/src/object.rs:98-100 -/
def size : Nat := createdMs + 6
/-- libblobd-lite/src/object.rs:102-104 -/
def id : Nat := size + 5
/-- libblobd-lite/src/object.rs:106-108 -/
def keyLenOff : Nat := id + 16
/-- libblobd-lite/src/object.rs:110-112 -/
def key : Nat := keyLenOff + 2
/-- libblobd-lite/src/object.rs:114-116 -/
def lpages : Nat := key + o.keyLen
/-- libblobd-lite/src/object.rs:118-120 -/
def lpage (i : Nat) : Nat := o.lpages + 6 * i
/-- libblobd-lite/src/object.rs:122-124 -/
def tailPages : Nat := o.lpage o.lpageCount
/-- libblobd-lite/src/object.rs:126-128 -/
def tailPage (i : Nat) : Nat := o.tailPages + 6 * i
/-- libblobd-lite/src/object.rs:130-132 -/
def assocDataLenOff : Nat := o.tailPage o.tailPageCount
/-- libblobd-lite/src/object.rs:134-136 -/
def assocData : Nat := o.assocDataLenOff + 2
/-- libblobd-lite/src/object.rs:138-140 -/
def totalSize : Nat := o.assocData + o.assocDataLen
end ObjectOffsets

/-- libblobd-lite/src/object.rs:40-46: state byte values -/
def stIncomplete : Nat := 1
def stCommitted : Nat := 2

/-- What `op_create_object` puts in a record. -/
structure NewObject where
  metaSizePow2 : Nat
  id : Nat
  createdMs : Nat
  size : Nat
  key : List Byte
  lpages : List Nat
  tailPages : List Nat
  assocData : List Byte

/-- libblobd-lite/src/op/create_object.rs:44-48 -/
def NewObject.off (o : NewObject) : ObjectOffsets :=
  { keyLen := o.key.length, lpageCount := o.lpages.length, tailPageCount := o.tailPages.length,
    assocDataLen := o.assocData.length }

/-- `for i in 0..n { raw.write_u48_be_at(base + 6 * i, page_i) }` (libblobd-lite/src/op/create_object.rs:84-91) -/
def pageWrites (base : Nat) (ps : List Nat) : List (Nat × List Byte) :=
  ps.mapIdx (fun i p => (base + 6 * i, beBytes 6 p))

/-- The field writes of libblobd-lite/src/op/create_object.rs:72-91, in code order. -/
def NewObject.fieldWrites (o : NewObject) : List (Nat × List Byte) :=
  [ (ObjectOffsets.state, leBytes 1 stIncomplete),
    (ObjectOffsets.metadataSizePow2, leBytes 1 o.metaSizePow2),
    (ObjectOffsets.id, beBytes 16 o.id),
    (ObjectOffsets.createdMs, beBytes 6 o.createdMs),
    (ObjectOffsets.size, beBytes 5 o.size),
    (ObjectOffsets.keyLenOff, beBytes 2 o.key.length),
    (ObjectOffsets.key, o.key),
    (o.off.assocDataLenOff, beBytes 2 o.assocData.length),
    (o.off.assocData, o.assocData) ] ++
  (pageWrites o.off.lpages o.lpages ++ pageWrites o.off.tailPages o.tailPages)

/-- libblobd-lite/src/op/create_object.rs:71-93: `vec![0u8; meta_size]` with the fields written into it. -/
def NewObject.encode (o : NewObject) : List Byte :=
  (Mem.writeAll (fun _ => 0) o.fieldWrites).read 0 o.off.totalSize

/-! ### Reading a record at device offset `d` (libblobd-lite/src/object.rs:165-250, without the overlay) -/

def rdBe (m : Mem) (off n : Nat) : Nat := beVal (m.read off n)

/-- libblobd-lite/src/object.rs:169 -/
def rdState (m : Mem) (d : Nat) : Nat := leVal (m.read (d + ObjectOffsets.state) 1)
/-- libblobd-lite/src/object.rs:172-174 -/
def rdMetaPow2 (m : Mem) (d : Nat) : Nat := leVal (m.read (d + ObjectOffsets.metadataSizePow2) 1)
/-- libblobd-lite/src/object.rs:184; 0 means none -/
def rdNext (m : Mem) (d : Nat) : Nat := rdBe m (d + ObjectOffsets.nextNode) 6
/-- libblobd-lite/src/object.rs:188-190 -/
def rdCreatedMs (m : Mem) (d : Nat) : Nat := rdBe m (d + ObjectOffsets.createdMs) 6
/-- libblobd-lite/src/object.rs:192-194 -/
def rdSize (m : Mem) (d : Nat) : Nat := rdBe m (d + ObjectOffsets.size) 5
/-- libblobd-lite/src/object.rs:196-198 -/
def rdId (m : Mem) (d : Nat) : Nat := rdBe m (d + ObjectOffsets.id) 16
/-- libblobd-lite/src/object.rs:200-202 -/
def rdKeyLen (m : Mem) (d : Nat) : Nat := rdBe m (d + ObjectOffsets.keyLenOff) 2
/-- libblobd-lite/src/object.rs:204-206 -/
def rdKey (m : Mem) (d : Nat) : List Byte := m.read (d + ObjectOffsets.key) (rdKeyLen m d)
/-- libblobd-lite/src/object.rs:208-210 -/
def rdLpageCount (pages : Pages) (m : Mem) (d : Nat) : Option Nat :=
  (calcObjectLayout pages (rdSize m d)).map (·.lpageCount)
/-- libblobd-lite/src/object.rs:217-221 -/
def rdTailPageCount (pages : Pages) (m : Mem) (d : Nat) : Option Nat :=
  (calcObjectLayout pages (rdSize m d)).map (·.tailPageSizes.len)
/-- libblobd-lite/src/object.rs:212-215 -/
def rdLpage (m : Mem) (d i : Nat) : Nat :=
  rdBe m (d + ({ keyLen := rdKeyLen m d } : ObjectOffsets).lpage i) 6
/-- libblobd-lite/src/object.rs:223-228 -/
def rdTailPage (pages : Pages) (m : Mem) (d i : Nat) : Option Nat := do
  let n ← rdLpageCount pages m d
  some (rdBe m (d + ({ keyLen := rdKeyLen m d, lpageCount := n } : ObjectOffsets).tailPage i) 6)
/-- libblobd-lite/src/object.rs:234-240 -/
def rdAssocLen (pages : Pages) (m : Mem) (d : Nat) : Option Nat := do
  let n ← rdLpageCount pages m d
  let t ← rdTailPageCount pages m d
  some (rdBe m (d + ({ keyLen := rdKeyLen m d, lpageCount := n, tailPageCount := t } : ObjectOffsets).assocDataLenOff) 2)
/-- libblobd-lite/src/object.rs:242-250 -/
def rdAssoc (pages : Pages) (m : Mem) (d : Nat) : Option (List Byte) := do
  let n ← rdLpageCount pages m d
  let t ← rdTailPageCount pages m d
  let l ← rdAssocLen pages m d
  some (m.read (d + ({ keyLen := rdKeyLen m d, lpageCount := n, tailPageCount := t } : ObjectOffsets).assocData) l)

/-! ### Bucket pointers -/

/-- libblobd-lite/src/allocator/pages.rs:1 -/
def minPageSizePow2 : Nat := 8

/-- libblobd-lite/src/bucket.rs:52-54 -/
def bucketOff (bkt : Nat) : Nat := bkt * 5
/-- libblobd-lite/src/bucket.rs:56-58 -/
def bucketsSize (n : Nat) : Nat := bucketOff n

/-- libblobd-lite/src/bucket.rs:195-198: bytes written for a head pointer -/
def encHead (devOffset : Nat) : List Byte := beBytes 5 (devOffset >>> minPageSizePow2)
/-- libblobd-lite/src/bucket.rs:127-132: how a running store reads a head pointer -/
def rdHead (m : Mem) (bucketsDevOffset bkt : Nat) : Nat :=
  rdBe m (bucketsDevOffset + bucketOff bkt) 5 <<< minPageSizePow2
/-- libblobd-lite/src/lib.rs:244-251: how startup reads a head pointer (note `>>`) -/
def rdHeadAtStartup (m : Mem) (bucketsDevOffset bkt : Nat) : Nat :=
  rdBe m (bucketsDevOffset + bucketOff bkt) 5 >>> minPageSizePow2

/-- libblobd-lite/src/bucket.rs:358-360: `hash64(key) >> (64 - bucket_count_pow2)` -/
def bucketIdForKey (hash64 : List Byte → Nat) (bucketCountPow2 : Nat) (key : List Byte) : Nat :=
  hash64 key >>> (64 - bucketCountPow2)

end Lite
end Blobd
