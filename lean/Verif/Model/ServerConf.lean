import Verif.Model.DirectStore
import Verif.Model.Capacity
/-!
# The server's configuration
-/
set_option autoImplicit false
namespace Blobd
namespace Server
open Direct

/-- blobd/src/conf.rs:13-37 `Conf`, without the network address and the secret; the fields with defaults have them (blobd/src/conf.rs:39-47) -/
structure Conf where
  /-- `object_tuples_area_reserved_space` -/
  reserved : Nat
  reapAfterSecs : Nat := 604800
  versioning : Bool := false
  /-- `device.offset`, `device.len` -/
  devOffset : Nat
  devLen : Nat
  disableAuthentication : Bool := false
  lpage : Nat := 24
  spage : Nat := 9

/-- blobd/src/main.rs:48-66 into libblobd-direct/src/partition/mod.rs:36-40: the store of the one partition. Offsets are relative to the partition. -/
def Conf.store (c : Conf) : SCfg where
  heap := ⟨32, tupleArea c.reserved ⟨c.spage, c.lpage⟩, c.devLen / 2 ^ c.lpage * 2 ^ c.lpage - tupleArea c.reserved ⟨c.spage, c.lpage⟩,
    ⟨c.spage, c.lpage⟩, .left⟩
  n := bundlesCount (tupleArea c.reserved ⟨c.spage, c.lpage⟩) ⟨c.spage, c.lpage⟩

end Server
end Blobd
