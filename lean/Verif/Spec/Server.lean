import Verif.Model.Server
/-!
# Vocabulary for the whole server
-/
set_option autoImplicit false
namespace Blobd
namespace Server
open MP (Bytes)

/-- the bytes a request body yields before it ends or breaks -/
def received : List (Except Unit Bytes) → Bytes
  | .ok c :: r => c ++ received r
  | _ => []

/-- the byte `b` was sent as byte `pos` of the upload `id`, in the body of a write request that was let through -/
def Uploaded (w : World) (id pos : Nat) (b : Byte) : Prop :=
  ∃ off body, (id, off, body) ∈ w.sent ∧ off ≤ pos ∧ (received body)[pos - off]? = some b

/-- the part of the upload that starts at `off` was acknowledged (a write receipt was handed out) -/
def PartAcked (h : List Http.Ev) (tok : Http.Tok) (off : Nat) : Prop := ∃ len, .acked tok off len ∈ h

end Server
end Blobd
