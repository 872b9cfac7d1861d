import Verif.Model.HttpRead
import Verif.Model.Url
set_option autoImplicit false
/-!
# The Rust client: requests

blobd-client-rs/src/lib.rs. Strings are given by their UTF-8 bytes. A key containing `?` puts text into the query of the
URL in front of the parameters of the request; the model ignores that text (the server would refuse the request with 400 if
it repeats a parameter).
-/
namespace Blobd
namespace Http

open MP (Bytes)

/-- a call of a method of `BlobdClient` -/
inductive ClientCall
  | batch (body : Bytes)
  | commit (key : Bytes) (upload : List Char) (receipts : List (List Char))
  | create (key : Bytes) (size : Nat)
  | delete (key : Bytes)
  | inspect (key : Bytes)
  | read (key : Bytes) (start stop : Option Nat)
  | write (key : Bytes) (upload : List Char) (offset : Nat) (data : Bytes)

/-- `Itertools::join(",")` -/
def joinComma : List (List Char) → List Char
  | [] => []
  | [x] => x
  | x :: y :: xs => x ++ ',' :: joinComma (y :: xs)

/-- blobd-client-rs/src/lib.rs:88-95 `generate_token_query_param`, valid for 300 seconds from `now` as in every method -/
def clientToken (S : Srv) (now : Nat) (a : Action) : List Char := newToken S a (now + 300)

/-- the request each method sends at time `now`: blobd-client-rs/src/lib.rs:128-171 batch_create_objects, 173-200 create_object, 202-225
commit_object, 227-241 delete_object, 243-274 inspect_object, 276-305 read_object, 307-341 write_object -/
def rustReq (S : Srv) (now : Nat) : ClientCall → Req
  | .batch body => .batch (clientToken S now .batchCreate) body
  | .commit k up rs => .commit (urlPath (clientPath k)) up (joinComma rs) (clientToken S now (.commit k))
  | .create k n => .create (urlPath (clientPath k)) n (clientToken S now (.create k n))
  | .delete k => .delete (urlPath (clientPath k)) (clientToken S now (.delete k))
  | .inspect k => .inspect (urlPath (clientPath k)) (clientToken S now (.inspect k))
  | .read k a b => .read (urlPath (clientPath k)) (clientRange a b) (clientToken S now (.read k))
  | .write k up off data => .write (urlPath (clientPath k)) off data.length up (clientToken S now (.write k)) [.ok data]

end Http
end Blobd
