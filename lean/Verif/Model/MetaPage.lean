import Verif.Model.Buddy
/-!
# How the size of an object's metadata page is chosen, recorded and used
-/
namespace Blobd
namespace MetaPage

/-- libblobd-direct/src/op/create_object.rs:74-77 `metadata_page_size` -/
def directPageSize (pages : Pages) (metadataSize : Nat) : Nat :=
  max (1 <<< pages.spage) (ceilPow2 metadataSize pages.spage)

/-- libblobd-direct/src/op/create_object.rs:85 `metadata_page_size_pow2: u8!(metadata_page_size.ilog2())`: the size recorded in
the tuple, with which the page is read (libblobd-direct/src/objects.rs:112-117) and marked (libblobd-direct/src/objects.rs:162) at start-up and
released on deletion (libblobd-direct/src/op/delete_object.rs:25) -/
def directRecorded (pages : Pages) (metadataSize : Nat) : Nat := Nat.log2 (directPageSize pages metadataSize)

/-- libblobd-direct/src/op/create_object.rs:78 `heap_allocator.allocate(metadata_size)`: exponent of the page obtained
(libblobd-direct/src/allocator/mod.rs:159-169) -/
def allocated (pages : Pages) (metadataSize : Nat) : Nat := Buddy.requestPow2 pages metadataSize

/-- libblobd-direct/src/op/create_object.rs:89-92: the bytes written at the metadata offset -/
def directWritten (pages : Pages) (metadataSize : Nat) : Nat := directPageSize pages metadataSize

/-- libblobd-lite/src/op/create_object.rs:53-56 `meta_size_pow2` -/
def liteRecorded (pages : Pages) (metaSize : Nat) : Nat := max pages.spage (nextPow2Exp metaSize)

end MetaPage
end Blobd
