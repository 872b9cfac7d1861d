import Verif.Model.KvStore
import Verif.Model.DirectStore
/-!
# Specification vocabulary for device I/O

Devices opened with `O_DIRECT` refuse an access whose offset or length is not a multiple of the sector size, and the
stores' partitions share one device, so an access outside its region would hit somebody else's data.
-/
set_option autoImplicit false
namespace Blobd
namespace Spec

/-- an access of `len` bytes at `off` consists of whole pages of `2 ^ p` bytes and stays inside `[lo, hi)` -/
structure Proper (p lo hi off len : Nat) : Prop where
  pos : 0 < len
  offset : 2 ^ p ∣ off
  length : 2 ^ p ∣ len
  ge : lo ≤ off
  le : off + len ≤ hi

/-- two writes share no byte -/
def Apart (a b : Nat × List Byte) : Prop := a.1 + a.2.length ≤ b.1 ∨ b.1 + b.2.length ≤ a.1

end Spec

namespace Kv

/-- heap writes in flight: of `write_object` calls and of the background commit -/
def heapWrites (s : St) : List (Nat × List Byte) :=
  s.preps.map (·.write) ++
    match s.commit with
    | some ⟨_, .moving ws _⟩ => ws
    | _ => []

/-- log writes in flight -/
def logWrites (s : St) : List (Nat × List Byte) :=
  (s.log.inflight.filter (fun f => !f.done)).flatMap (·.writes)

/-- bundle pages on their way to the device: index and bytes -/
def pageWrites (s : St) : List (Nat × List Byte) :=
  match s.commit with
  | some ⟨_, .updating _ _ comp⟩ => comp
  | _ => []

end Kv
end Blobd
