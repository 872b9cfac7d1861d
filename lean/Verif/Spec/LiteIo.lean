import Verif.Spec.LiteStore
set_option autoImplicit false
/-! # Specification vocabulary: device writes of the lite store -/
namespace Blobd
namespace Lite

/-- who has a write under way -/
inductive Src
  /-- `create_object` call `i` writes the record of its new object -/
  | record (i : Nat)
  /-- `write_object` call `i` writes a page of upload `id` -/
  | part (i id : Nat)
  /-- the journal writes a batch to its area -/
  | journal
  /-- the journal writes a recorded change to its place -/
  | entry
  /-- the journal blanks its area -/
  | blank

/-- a device write that is under way, or that its call has still to do: offset and length -/
inductive InFlight (c : LCfg) (s : LSt) : Src → Nat → Nat → Prop
  | record {i : Nat} {st : Begun} {o : NewObject} {off : Nat} : s.thr i = some ⟨st, .createWrite o off⟩ → InFlight c s (.record i) off o.encode.length
  | part {i : Nat} {st : Begun} {key : List Byte} {id : Nat} {targets : List (Nat × Nat)} {t : Nat × Nat} :
      s.thr i = some ⟨st, .writing key id targets⟩ → t ∈ targets → InFlight c s (.part i id) t.2 t.1
  | journal {b : Journal.Batch} : s.j.phase = .journal b → InFlight c s .journal c.jc.devOffset (b.buf c.jc).length
  | entry {b : Journal.Batch} {todo : Merge.Writes} {e : Nat × List Byte} : s.j.phase = .entries b todo → e ∈ todo → InFlight c s .entry e.1 e.2.length
  | blank {b : Journal.Batch} : s.j.phase = .blanking b → InFlight c s .blank c.jc.devOffset (Journal.blank c.jc).length

/-- a byte of the cells of the buckets -/
def BucketByte (c : LCfg) (y : Nat) : Prop := c.bkDev ≤ y ∧ y < c.bkDev + 5 * 2 ^ c.bits
/-- a byte of the journal -/
def JournalByte (c : LCfg) (y : Nat) : Prop := c.jc.devOffset ≤ y ∧ y < c.jc.devOffset + c.jc.cap
/-- a byte of the heap -/
def HeapByte (c : LCfg) (y : Nat) : Prop := c.heap.base ≤ y ∧ y < c.heap.base + c.heap.heap

/-- where a write may go -/
def Src.Region (c : LCfg) : Src → Nat → Prop
  | .record _, y => HeapByte c y
  | .part _ _, y => HeapByte c y
  | .journal, y => JournalByte c y
  | .blank, y => JournalByte c y
  | .entry, y => BucketByte c y ∨ HeapByte c y

/-- both are parts of the same upload -/
def Src.SameUpload : Src → Src → Prop
  | .part _ id, .part _ id' => id = id'
  | _, _ => False

end Lite
end Blobd
