import Verif.Spec.JsClient
import Verif.Model.RustClient
set_option autoImplicit false
/-! # Specification vocabulary for the Rust client -/
namespace Blobd
namespace Http

open MP (Bytes)

/-- the part of a key that the URL parser takes for the path: without trailing spaces, up to `?` or `#`, with `/` for
every backslash -/
def pathPart (key : Bytes) : Bytes :=
  (((key.reverse.dropWhile (fun b => b = 32)).reverse).takeWhile (fun b => b ≠ 63 ∧ b ≠ 35)).map (fun b => if b = 92 then 47 else b)

/-- the key contains `%` followed by two hexadecimal digits -/
def hasEscape (key : Bytes) : Prop :=
  ∃ a x y b, key = a ++ 37 :: x :: y :: b ∧ hexVal x ≠ none ∧ hexVal y ≠ none

/-- the key a method of the client is called with -/
def ClientCall.key? : ClientCall → Option Bytes
  | .batch _ => none
  | .commit k .. | .create k .. | .delete k | .inspect k | .read k .. | .write k .. => some k

/-- the action that a call needs a token for, if the server takes `k` for the key -/
def ClientCall.actionFor (k : Bytes) : ClientCall → Action
  | .batch _ => .batchCreate
  | .commit .. => .commit k
  | .create _ n => .create k n
  | .delete _ => .delete k
  | .inspect _ => .inspect k
  | .read .. => .read k
  | .write .. => .write k

end Http
end Blobd
