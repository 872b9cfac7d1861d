import Verif.Spec.RustClient
import Verif.Model.Wire
set_option autoImplicit false
/-! # Specification vocabulary for requests on the wire -/
namespace Blobd
namespace Http

open MP (Bytes)

/-- ASCII text -/
def Ascii (s : List Char) : Prop := ∀ c ∈ s, c.toNat < 128

/-- one of these parameters has the name -/
def Taken (ps : List (Bytes × Bytes)) (name : List Char) : Prop := ∃ p ∈ ps, p.1 = ascii name

/-- the parameters a method adds to its URL -/
def ClientCall.names : ClientCall → List (List Char)
  | .commit .. => [pUpload, pReceipts, pT]
  | .create .. => [pSize, pT]
  | .write .. => [pOffset, pUpload, pT]
  | _ => [pT]

/-- the arguments of a call are of the types of the API: `u64` numbers; tokens and receipts are ASCII -/
def ClientCall.Fits : ClientCall → Prop
  | .commit _ up rs => Ascii up ∧ ∀ r ∈ rs, Ascii r
  | .create _ n => n < 2 ^ 64
  | .write _ up off _ => Ascii up ∧ off < 2 ^ 64
  | _ => True

/-- the receipts of all parts of an upload, in order -/
def allReceipts (S : Srv) (tok : Tok) (size : Nat) : List (List Char) :=
  (List.range (partCount size (2 ^ S.pages.lpage))).map (writeReceipt S tok)

/-- the answer of the store, given to the caller: the value, or an error with the status that names the store's error -/
def handOn {α : Type} (res : Except RW.OpError α) (f : α → Got) : Got :=
  match res with
  | .ok x => f x
  | .error e => .refused (errStatus e)

end Http
end Blobd
