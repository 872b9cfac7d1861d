import Verif.Model.LiteUpload
import Verif.Spec.LiteStore
set_option autoImplicit false
/-! # Vocabulary for uploads to the lite store -/
namespace Blobd
namespace Lite
namespace Upload

/-- the bytes a request body yields before it ends or breaks -/
def received : List (Except Unit (List Byte)) → List Byte
  | .ok c :: r => c ++ received r
  | _ => []

/-- the byte `b` was sent as byte `pos` of the object with this id, in the body of a `write_object` call that passed its checks -/
def Uploaded (w : World) (id pos : Nat) (b : Byte) : Prop :=
  ∃ off body, (id, off, body) ∈ w.sent ∧ off ≤ pos ∧ (received body)[pos - off]? = some b

/-- a `write_object` call for the part at `off` was answered with success -/
def PartAcked (s : LSt) (id off : Nat) : Prop :=
  ∃ a ∈ s.acks, ∃ key len, a.start.call = .lookup (.write id off len) key ∧ a.resp = .written (.ok ())

/-- byte `pos` of the object whose inode is at `off`: where it is on the device -/
def byteAddr : List (Nat × Nat) → Nat → Option Nat
  | [], _ => none
  | (q, e) :: l, pos => if pos < 2 ^ e then some (q + pos) else byteAddr l (pos - 2 ^ e)

end Upload
end Lite
end Blobd
