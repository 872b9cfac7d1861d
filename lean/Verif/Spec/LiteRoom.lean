import Verif.Spec.LiteProgress
set_option autoImplicit false
/-! # Specification vocabulary: room for uploads in the lite store -/
namespace Blobd
namespace Lite

/-- how many large pages are wholly free -/
def largePages (c : LCfg) (s : LSt) : Nat := (s.alloc.free c.pages.lpage).card

/-- the record of an object with this key and these associated data, on the device -/
def recordSize (lay : ObjectLayout) (key assoc : List Byte) : Nat :=
  ({ keyLen := key.length, lpageCount := lay.lpageCount, tailPageCount := lay.tailPageSizes.len, assocDataLen := assoc.length } : ObjectOffsets).totalSize

/-- call `i` has been answered with the id of a new object -/
def Made (s : LSt) (i id : Nat) : Prop := ∃ a ∈ s.acks, a.id = i ∧ a.resp = .created id

/-- the id of the object a create call under way is making -/
def PC.makes : PC → Option Nat
  | .createWrite o _ | .createLink o _ => some o.id
  | .wait _ _ _ (.created id) | .evict _ (.created id) => some id
  | _ => none

end Lite
end Blobd
