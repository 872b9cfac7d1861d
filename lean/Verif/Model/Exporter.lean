import Verif.Model.DirectTuple
import Verif.Model.ReadWrite
/-!
# Direct store: data export

libblobd-direct/src/exporter.rs:23-163. The tuple areas are given decoded (see C24 for the bytes), one list
of tuples per partition, in the order in which the concurrent loads happened to finish.
-/
namespace Blobd
namespace Exporter
open Direct

/-- libblobd-direct/src/exporter.rs:23-27 -/
structure Marker where
  objectId : Nat
  partition : Nat
  deriving DecidableEq, Repr

/-- libblobd-direct/src/exporter.rs:29-37 `Ord::cmp`: by object id, then by partition -/
def Marker.cmp (a b : Marker) : Ordering := (compare a.objectId b.objectId).then (compare a.partition b.partition)

/-- `a <= b` -/
def Marker.le (a b : Marker) : Bool := a.cmp b != .gt

/-- libblobd-direct/src/exporter.rs:23: `#[derive(Default)]` -/
def Marker.default : Marker := ⟨0, 0⟩

/-- libblobd-direct/src/exporter.rs:136-148: the entries of one partition's tuple area, in order -/
def partEntries (offset : Marker) (part : Nat) (ts : List Tuple) : List (Marker × Tuple) :=
  ts.filterMap (fun t =>
    let marker : Marker := ⟨t.id, part⟩
    if offset.le marker = true ∧ t.state = .committed then some (marker, t) else none)

/-- libblobd-direct/src/exporter.rs:118-154 `BlobdExporter::new`, result of `take()`; `sort_unstable_by_key` is modelled by
merge sort (the keys are distinct, so every sort gives the same result, `C32_lists_each_once`) -/
def entries (areas : List (Nat × List Tuple)) (offset : Marker) : List (Marker × Tuple) :=
  (areas.flatMap (fun a => partEntries offset a.1 a.2)).mergeSort (fun a b => a.1.le b.1)

/-- libblobd-direct/src/exporter.rs:83-89: the device ranges to read: large pages, then tail pages -/
def reads (pages : Pages) (lay : ObjectLayout) (lpages : List Nat) (tailOff : Nat → Nat) : List (Nat × Nat) :=
  lpages.map (fun off => (off, 2 ^ pages.lpage)) ++
  lay.tailPageSizes.toIter.map (fun is => (tailOff is.1, 1 <<< is.2))

/-- libblobd-direct/src/exporter.rs:91-100: the data stream (`truncate` keeps at most `rem` bytes, `rem` saturates at 0) -/
def stream (dev : Mem) : Nat → List (Nat × Nat) → List (List Byte)
  | _, [] => []
  | rem, (off, len) :: rs => (dev.read off len).take rem :: stream dev (rem - len) rs

/-- libblobd-direct/src/exporter.rs:61-109 `read`, the data stream of an exported object whose metadata says `size` bytes with
these page offsets; `none` is a panic in the layout computation -/
def readData (pages : Pages) (dev : Mem) (o : RW.Obj) : Option (List (List Byte)) :=
  match calcObjectLayoutDirect pages o.size with
  | none => none
  | some lay => some (stream dev o.size
      (reads pages lay ((List.range lay.lpageCount).map o.lpageOff) o.tailOff))

end Exporter
end Blobd
