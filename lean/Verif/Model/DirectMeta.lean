import Verif.Model.MsgPack
import Verif.Model.MetaPage
/-!
# Direct store: object metadata and its encoding

libblobd-direct/src/object/mod.rs:98-107 `ObjectMetadata`, serialised with `rmp_serde::Serializer` as an
array of its five fields. `created` is a count of microseconds since 1970 (`ts_microseconds`, an `i64`);
instants before 1970 are not modelled (the code only stores `Utc::now()`).
-/
namespace Blobd
namespace Direct

/-- libblobd-direct/src/object/mod.rs:100-107 -/
structure Meta where
  size : Nat
  created : Nat
  key : List Byte
  lpages : List Nat
  tails : List Nat
  deriving DecidableEq, Repr

/-- `Vec<u64>` -/
def mpUints (l : List Nat) : List Byte := MP.arr l.length ++ l.flatMap MP.uint

/-- libblobd-direct/src/op/create_object.rs:67-70: the serialised metadata -/
def Meta.enc (m : Meta) : List Byte :=
  MP.arr 5 ++ MP.uint m.size ++ MP.uint m.created ++ MP.bytes m.key ++ mpUints m.lpages ++ mpUints m.tails

/-- reading `n` integers -/
def getNats : Nat → List Byte → Option (List Nat × List Byte)
  | 0, r => some ([], r)
  | n + 1, r =>
    match MP.getUint r with
    | none => none
    | some (v, r) =>
      match getNats n r with
      | none => none
      | some (vs, r) => some (v :: vs, r)

def getNatList (r : List Byte) : Option (List Nat × List Byte) :=
  match MP.getArr r with
  | none => none
  | some (n, r) => getNats n r

/-- libblobd-direct/src/objects.rs:119-122 `ObjectMetadata::deserialize`: trailing bytes are ignored. `none`: an error, which
the caller unwraps. -/
def Meta.dec (raw : List Byte) : Option Meta := do
  let (n, r) ← MP.getArr raw
  if n = 5 then
    let (size, r) ← MP.getUint r
    let (created, r) ← MP.getUint r
    let (key, r) ← MP.getBytes r
    let (lpages, r) ← getNatList r
    let (tails, _) ← getNatList r
    some ⟨size, created, key, lpages, tails⟩
  else none

/-- libblobd-direct/src/object/mod.rs:44-62 with libblobd-direct/src/op/delete_object.rs:18-24, libblobd-direct/src/objects.rs:163-169: the data pages of an object, as
`(device offset, size exponent)`. `create_object` stores exactly as many tail offsets as the layout has
tail pages, so pairing them up loses nothing. -/
def Meta.dataPages (pages : Pages) (m : Meta) : List (Nat × Nat) :=
  match calcObjectLayoutDirect pages m.size with
  | none => []
  | some lay => m.lpages.map (fun o => (o, pages.lpage)) ++ m.tails.zip lay.tailPageSizes.toList

end Direct
end Blobd
