import Verif.Model.LiteObject
/-! Specification vocabulary for lite object records. -/
namespace Blobd
namespace Lite

/-- field widths (the documented limits; longer keys make `u16!` panic, larger values would be
truncated) -/
structure Fits (o : NewObject) : Prop where
  pow2 : o.metaSizePow2 < 2 ^ 8
  id : o.id < 2 ^ 128
  created : o.createdMs < 2 ^ 48
  size : o.size < 2 ^ 40
  key : o.key.length < 2 ^ 16
  assoc : o.assocData.length < 2 ^ 16
  lpages : ∀ p ∈ o.lpages, p < 2 ^ 48
  tails : ∀ p ∈ o.tailPages, p < 2 ^ 48

/-- page lists have the lengths the layout prescribes (libblobd-lite/src/op/create_object.rs:39-48, 84-91) -/
structure Shaped (pages : Pages) (o : NewObject) (lay : ObjectLayout) : Prop where
  eq : calcObjectLayout pages o.size = some lay
  lpages : o.lpages.length = lay.lpageCount
  tails : o.tailPages.length = lay.tailPageSizes.len

/-- Later changes to a record: `commit` changes the state byte (libblobd-lite/src/op/commit_object.rs:75-77), `create`,
`delete` and list surgery change the next pointer (libblobd-lite/src/op/create_object.rs:112-115, libblobd-lite/src/bucket.rs:218-223). -/
inductive HdrUpdate
  | state (st : Nat) (h : st < 2 ^ 8)
  | next (nx : Nat) (h : nx < 2 ^ 48)

def HdrUpdate.apply (d : Nat) (m : Mem) : HdrUpdate → Mem
  | .state st _ => m.write (d + ObjectOffsets.state) (leBytes 1 st)
  | .next nx _ => m.write (d + ObjectOffsets.nextNode) (beBytes 6 nx)

/-- the last state / next pointer set, if any -/
def lastState : List HdrUpdate → Nat → Nat
  | [], d => d
  | .state st _ :: us, _ => lastState us st
  | .next _ _ :: us, d => lastState us d
def lastNext : List HdrUpdate → Nat → Nat
  | [], d => d
  | .state _ _ :: us, d => lastNext us d
  | .next nx _ :: us, _ => lastNext us nx

end Lite
end Blobd
