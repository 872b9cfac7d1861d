import Verif.Model.DirectTuple
import Verif.Model.Regions
/-!
# How many objects fit the tuple area of a partition of the direct store
-/
set_option autoImplicit false
namespace Blobd
namespace Direct

/-- libblobd-direct/src/tuples.rs:205-208 `tuple_bundles_count` -/
def bundlesCount (area : Nat) (pages : Pages) : Nat := area / 2 ^ pages.spage

/-- libblobd-direct/src/partition/mod.rs:36-37: the tuple area made from `object_tuples_area_reserved_space` -/
def tupleArea (reserved : Nat) (pages : Pages) : Nat := ceilPow2 reserved pages.lpage

/-- store/src/direct.rs:57-58: the space reserved per partition for `objects` objects on `parts` partitions -/
def storeReserved (objects parts : Nat) : Nat := (objects * 20 + (parts - 1)) / parts

/-- blobd/src/conf.rs:14-15: the documented setting of `object_tuples_area_reserved_space` -/
def confReserved (objects parts : Nat) : Nat := 20 * objects / parts

/-- slots for tuples in a partition: bundles (libblobd-direct/src/tuples.rs:205-208) times tuples per bundle (libblobd-direct/src/tuples.rs:50) -/
def tupleSlots (reserved : Nat) (pages : Pages) : Nat := bundlesCount (tupleArea reserved pages) pages * maxTuples pages

end Direct
end Blobd
